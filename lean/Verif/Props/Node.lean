import Verif.Proofs.NodeStart
import Verif.Proofs.StateDemo

/-!
# A node over its whole life (C31)

Model: `Verif/Model/Node.lean`. Vocabulary: `Verif/Spec/Node.lean`.
-/

set_option linter.unusedSimpArgs false
set_option linter.unusedVariables false
set_option linter.unusedSectionVars false

namespace Overlord
open Spec

variable {T : Type} [ContentCodec T] [DecidableEq T]

/-! ## C31 — no equivocation -/

/-- The conditions under which C31 is proved. -/
def CalmSchedule (addr : Address) (as : List (NAct T)) : Prop :=
  Along (fun n a => InSync n a ∧ RoundSmall n a ∧ StartOk addr n a) addr (NodeSys.new addr) as

/-- **C31** (partial). The votes a node releases over its whole life, with crashes in the middle of any input and
any number of restarts, are strictly ordered by height, round and vote type.
Missing: schedules in which the State takes up an order that was given for another height (`InSync`; C31 is false
there, see below), `u64` rounds at the very end of their range, and starts at which the storage does not return the
record saved last. -/
theorem C31_votes_ordered_partial (addr : Address) (as : List (NAct T)) (n : NodeSys T)
    (hr : (NodeSys.new addr).run addr as = some n) (ok : CalmSchedule addr as) :
    (votesOf n.log).Pairwise fun a b => Pos.lt (votePos a) (votePos b) := by
  have := along_inv (P := NodeInv) (fun n a n' h1 h2 h3 => node_inv h1 h2 h3) as _ n (nodeInv_new addr) ok hr
  rw [votesOf_obs]
  exact this.good.sorted

/-- **C31** (partial, see above). Two votes released for the same height, round and type are the same vote. -/
theorem C31_no_equivocation_partial (addr : Address) (as : List (NAct T)) (n : NodeSys T)
    (hr : (NodeSys.new addr).run addr as = some n) (ok : CalmSchedule addr as)
    (v w : SignedVote) (hv : v ∈ votesOf n.log) (hw : w ∈ votesOf n.log)
    (h1 : v.vote.height = w.vote.height) (h2 : v.vote.round = w.vote.round)
    (h3 : v.vote.voteType = w.vote.voteType) : v = w := by
  have hs := C31_votes_ordered_partial addr as n hr ok
  have key : ∀ l : List SignedVote, (l.Pairwise fun a b => Pos.lt (votePos a) (votePos b)) →
      v ∈ l → w ∈ l → v = w := by
    intro l
    induction l with
    | nil => intro _ h; cases h
    | cons x l ih =>
      intro hp hv hw
      rw [List.pairwise_cons] at hp
      have e : votePos v = votePos w := by simp [votePos, h1, h2, h3]
      rcases List.mem_cons.1 hv with a1 | a1 <;> rcases List.mem_cons.1 hw with a2 | a2
      · rw [a1, a2]
      · have := hp.1 w a2; rw [← a1, e] at this; exact absurd this (Pos.lt_irrefl _)
      · have := hp.1 v a1; rw [← a2, e] at this; exact absurd this (Pos.lt_irrefl _)
      · exact ih hp.2 a1 a2
  exact key _ hs hv hw

/-- A vote is only released after the record of its position has been saved, and the record saved last is never
before a released vote. -/
theorem C31_saved_before_released_partial (addr : Address) (as : List (NAct T)) (n : NodeSys T)
    (hr : (NodeSys.new addr).run addr as = some n) (ok : CalmSchedule addr as) (v : SignedVote) (hv : v ∈ votesOf n.log) :
    ∃ w, lastSaved n.log = some w ∧ Pos.le (votePos v) (recPos w) := by
  have := along_inv (P := NodeInv) (fun n a n' h1 h2 h3 => node_inv h1 h2 h3) as _ n (nodeInv_new addr) ok hr
  unfold lastSaved
  rw [savedOf_obs]
  exact this.good.saved v (by rw [← votesOf_obs]; exact hv)

/-! ### Checking schedules -/

/-- `InSync`, computed. -/
def inSyncB (n : NodeSys T) : NAct T → Bool
  | .arm .event _ _ =>
    match n.stQ with
    | ev :: _ =>
      match orderHeight ev with
      | some h => h == n.st.height
      | none => true
    | [] => true
  | _ => true

/-- `RoundSmall`, computed. -/
def roundSmallB (n : NodeSys T) : NAct T → Bool
  | .smr =>
    match n.sys.trigQ with
    | t :: _ => t.round < 2 ^ 64 - 1
    | [] => true
  | _ => true

/-- `StartOk`, computed. -/
def startOkB (addr : Address) (n : NodeSys T) : NAct T → Bool
  | .start p e _ =>
    if (p.list.map Node.address).contains addr then
      match lastSaved n.log with
      | none => e.walLoad == some none
      | some w =>
        match e.walLoad with
        | some (some b) =>
          match decWalInfo (T := T) b with
          | .ok w' => decide (w.height ≠ 0) && decide (w' = w)
          | .error _ => false
        | _ => false
    else (savedOf n.log).all fun w => w.height ≤ p.initHeight
  | _ => true

/-- `Along`, computed. -/
def alongB (ok : NodeSys T → NAct T → Bool) (addr : Address) : NodeSys T → List (NAct T) → Bool
  | _, [] => true
  | n, a :: as =>
    ok n a &&
    match n.act addr a with
    | some n' => alongB ok addr n' as
    | none => true

theorem inSyncB_sound {n : NodeSys T} {a : NAct T} (h : inSyncB n a = true) : InSync n a := by
  unfold InSync
  split
  · intro ev q h' hq ho
    simp only [inSyncB, hq, ho] at h
    simpa using h
  · trivial

theorem roundSmallB_sound {n : NodeSys T} {a : NAct T} (h : roundSmallB n a = true) : RoundSmall n a := by
  unfold RoundSmall
  split
  · intro t q hq
    simp only [roundSmallB, hq] at h
    simpa using h
  · trivial

theorem startOkB_sound {addr : Address} {n : NodeSys T} {a : NAct T} (h : startOkB addr n a = true) :
    StartOk addr n a := by
  unfold StartOk
  split
  · rename_i p e cut
    simp only [startOkB] at h
    split
    · rename_i hl
      rw [if_pos hl] at h
      split
      · rename_i hn
        rw [hn] at h
        simpa using h
      · rename_i w hw
        rw [hw] at h
        dsimp only at h
        split at h
        · rename_i b hb
          split at h
          · rename_i w' hd
            simp only [Bool.and_eq_true, decide_eq_true_eq] at h
            exact ⟨h.1, b, hb, by rw [hd, h.2]⟩
          · cases h
        · cases h
    · rename_i hl
      rw [if_neg hl] at h
      intro w hw
      simpa using List.all_eq_true.1 h w hw
  · trivial

theorem alongB_sound {ok : NodeSys T → NAct T → Bool} {ok' : NodeSys T → NAct T → Prop} {addr : Address}
    (hs : ∀ n a, ok n a = true → ok' n a) :
    ∀ (as : List (NAct T)) (n : NodeSys T), alongB ok addr n as = true → Along ok' addr n as := by
  intro as
  induction as with
  | nil => intro n _; trivial
  | cons a as ih =>
    intro n h
    simp only [alongB, Bool.and_eq_true] at h
    refine ⟨hs n a h.1, fun n' hn => ?_⟩
    have h2 := h.2
    rw [hn] at h2
    exact ih n' h2

namespace StDemo

/-- All three conditions. -/
def calmB (n : NodeSys C) (a : NAct C) : Bool := inSyncB n a && roundSmallB n a && startOkB [1] n a

theorem calm_of_calmB {as : List (NAct C)} (h : alongB calmB [1] (NodeSys.new [1]) as = true) :
    CalmSchedule [1] as := by
  refine alongB_sound (fun n a h => ?_) as _ h
  simp only [calmB, Bool.and_eq_true] at h
  exact ⟨inSyncB_sound h.1.1, roundSmallB_sound h.1.2, startOkB_sound h.2⟩

/-- Start parameters: height 7. -/
def params : StartParams := { initHeight := 7, interval := 3000, list := nodes, timerConfig := none }

/-- A message arrives, is verified and handled. -/
def deliver (m : OverlordMsg C) : List (NAct C) :=
  [.arm (.raw m) env none, .verifyDone (crypto [1]) 0, .arm .verified env none]

/-- The record of the prevote for `[5]` in round 0 of height 7. -/
def prevoteRec : WalInfo C :=
  { height := 7, round := 0, step := .prevote, lock := none, «from» := .precommitQC mockInitQc }

/-- The environment after a restart: the storage returns the record. -/
def envRestart (w : WalInfo C) : Env C := { env with walLoad := some (encWalInfo w) }

/-- The node gets the proposal of round 0 and prevotes; it crashes (`cut = some 1`: between saving the record and
sending the vote), restarts, gets the proposal again, the prevote certificate and the block check, precommits and
crashes again. -/
def life (cut : Option Nat) : List (NAct C) :=
  [.start params env none] ++ deliver (.signedProposal (prop 2 7 0 [5, 5] [5])) ++
  [.smr, .arm .event env cut, .crash, .start params (envRestart prevoteRec) none] ++
  deliver (.signedProposal (prop 2 7 0 [5, 5] [5])) ++ [.checkDone 0 true, .arm .resp env none] ++
  deliver (.aggregatedVote (cert [2, 3, 4] 7 0 .prevote [5])) ++
  [.smr, .smr, .arm .event env none, .crash]

def votesSeen (n : NodeSys C) : List (Nat × Nat × VoteType × Hash) :=
  (votesOf n.log).map fun v => (v.vote.height, v.vote.round, v.vote.voteType, v.vote.blockHash)

example : ((NodeSys.new [1]).run [1] (life none)).map votesSeen = some [(7, 0, .prevote, [5]), (7, 0, .precommit, [5])] ∧
    ((NodeSys.new [1]).run [1] (life (some 1))).map votesSeen = some [(7, 0, .precommit, [5])] := by
  constructor <;> decide +kernel

example : CalmSchedule [1] (life none) ∧ CalmSchedule [1] (life (some 1)) :=
  ⟨calm_of_calmB (by decide +kernel), calm_of_calmB (by decide +kernel)⟩

/-- An order for height 7 is still pending when a status for height 8 is adopted. -/
def stale : List (NAct C) :=
  [.start params env none] ++ deliver (.signedProposal (prop 2 7 0 [5, 5] [5])) ++
  [.smr, .arm (.raw (.richStatus { height := 8, interval := none, timerConfig := none, authorityList := nodes })) env none,
   .arm .verified env none, .smr, .arm .event env none, .arm .event env none, .smr, .arm .event env none]

end StDemo

/-- C31 is false in general: an order to prevote for height 7, taken up after the node has adopted the status of
height 8, makes it release a vote for height 8; the proper prevote of that height and round follows. No crash, no
Byzantine message is needed. -/
theorem C31_false_with_stale_orders :
    ∃ n v w, (NodeSys.new [1]).run [1] StDemo.stale = some n ∧ v ∈ votesOf n.log ∧ w ∈ votesOf n.log ∧
      v.vote.height = w.vote.height ∧ v.vote.round = w.vote.round ∧ v.vote.voteType = w.vote.voteType ∧
      v.vote.blockHash ≠ w.vote.blockHash ∧ v.voter = w.voter := by
  have h : ∃ n, (NodeSys.new [1]).run [1] StDemo.stale = some n ∧
      StDemo.votesSeen n = [(8, 0, .prevote, [5]), (8, 0, .prevote, [9])] ∧
      (votesOf n.log).map SignedVote.voter = [[1], [1]] := by
    have hd : (match (NodeSys.new [1]).run [1] StDemo.stale with
        | some n => decide (StDemo.votesSeen n = [(8, 0, .prevote, [5]), (8, 0, .prevote, [9])] ∧
            (votesOf n.log).map SignedVote.voter = [[1], [1]])
        | none => false) = true := by decide +kernel
    split at hd
    · rename_i n hn; exact ⟨n, hn, of_decide_eq_true hd⟩
    · cases hd
  obtain ⟨n, h1, h2, h3⟩ := h
  unfold StDemo.votesSeen at h2
  obtain ⟨v, w, hl⟩ : ∃ v w, votesOf n.log = [v, w] := List.length_eq_two.1 (by
    have := congrArg List.length h3; simpa using this)
  rw [hl] at h2 h3
  simp only [List.map_cons, List.map_nil, List.cons.injEq, Prod.mk.injEq, and_true] at h2 h3
  refine ⟨n, v, w, h1, by rw [hl]; simp, by rw [hl]; simp, ?_, ?_, ?_, ?_, ?_⟩
  · rw [h2.1.1, h2.2.1]
  · rw [h2.1.2.1, h2.2.2.1]
  · rw [h2.1.2.2.1, h2.2.2.2.1]
  · rw [h2.1.2.2.2, h2.2.2.2.2]; decide
  · rw [h3.1, h3.2]

end Overlord
