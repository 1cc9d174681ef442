import Verif.Proofs.NetInv
import Verif.Props.Node4

/-! A network of five validators for the examples and counterexamples about networks (used for C43, C44). -/

set_option linter.unusedSectionVars false

namespace Overlord
open Spec

section
variable {T : Type} [ContentCodec T] [DecidableEq T]

/-! ### Checking schedules -/

/-- `Genuine`, computed (the lock round of a proposal: for the hash of its own certificate). -/
def genuineB (lists : Nat → List Node) (correct : Address → Bool) (votes : List (Address × Vote)) : OverlordMsg T → Bool
  | .signedVote sv => !correct sv.voter || decide ((sv.voter, sv.vote) ∈ votes)
  | .aggregatedVote qc => decide (Certified lists correct votes qc.voteType qc.height qc.round qc.blockHash)
  | .signedProposal sp =>
    match sp.proposal.lock with
    | some l => decide (Certified lists correct votes .prevote sp.proposal.height l.lockRound l.lockVotes.blockHash)
    | none => true
  | .signedChoke sc =>
    match sc.choke.from with
    | .prevoteQC qc => decide (sc.choke.round = 0) || decide (Certified lists correct votes qc.voteType qc.height qc.round qc.blockHash)
    | .precommitQC qc => decide (sc.choke.round = 0) || decide (Certified lists correct votes qc.voteType qc.height qc.round qc.blockHash)
    | .chokeQC _ => true
  | .richStatus st => decide (st.authorityList = lists st.height)
  | .stop => true

theorem genuineB_sound {lists : Nat → List Node} {correct : Address → Bool} {votes : List (Address × Vote)} {m : OverlordMsg T}
    (h : genuineB lists correct votes m = true) : Genuine lists correct votes m := by
  cases m with
  | signedVote sv =>
    intro hc
    simpa [genuineB, hc] using h
  | aggregatedVote qc =>
    have h : decide (Certified lists correct votes qc.voteType qc.height qc.round qc.blockHash) = true := h
    have h' := of_decide_eq_true h
    exact h'
  | signedProposal sp =>
    intro l hl
    simp only [genuineB, hl] at h
    exact ⟨_, of_decide_eq_true h⟩
  | signedChoke sc =>
    intro qc h0 hq _
    rcases hq with hq | hq <;> simp only [genuineB, hq, Bool.or_eq_true, decide_eq_true_eq] at h <;>
      exact h.resolve_left (by omega)
  | richStatus st =>
    have h : decide (st.authorityList = lists st.height) = true := h
    have h' := of_decide_eq_true h
    exact h'
  | stop => trivial

/-- `GenuineInput`, computed. -/
def genuineInputB (lists : Nat → List Node) (correct : Address → Bool) (votes : List (Address × Vote)) (n : NodeSys T) : NAct T → Bool
  | .arm .verified _ _ =>
    match n.verifiedQ with
    | m :: _ => !(m.isRichStatus || n.st.consensusPower && decide (m.getHeight? = some n.st.height)) || genuineB lists correct votes m
    | [] => true
  | _ => true

theorem genuineInputB_sound {lists : Nat → List Node} {correct : Address → Bool} {votes : List (Address × Vote)} {n : NodeSys T}
    {a : NAct T} (h : genuineInputB lists correct votes n a = true) : GenuineInput lists correct votes n a := by
  unfold GenuineInput
  split
  · intro m q hq hm
    simp only [genuineInputB, hq] at h
    rw [Bool.or_eq_true] at h
    rcases h with h | h
    · rcases hm with hm | hm <;> simp [hm] at h
    · exact genuineB_sound h
  · trivial

/-- `NoSelfUnlock`, computed. -/
def noSelfB (lists : Nat → List Node) (correct : Address → Bool) (votes : List (Address × Vote)) (n : NodeSys T) : NAct T → Bool
  | .smr =>
    match n.sys.trigQ with
    | t :: _ =>
      match n.sys.smr.lock, t.lockRound with
      | some l, some lr => !(decide (t.triggerType = .proposal)) || !decide (l.round < lr) ||
          !decide (Certified lists correct votes .prevote n.sys.smr.height lr l.hash)
      | _, _ => true
    | [] => true
  | _ => true

theorem noSelfB_sound {lists : Nat → List Node} {correct : Address → Bool} {votes : List (Address × Vote)} {n : NodeSys T}
    {a : NAct T} (h : noSelfB lists correct votes n a = true) : NoSelfUnlock lists correct votes n a := by
  unfold NoSelfUnlock
  split
  · intro t q l lr hq h1 _ _ _ h2 h3 h4
    simp only [noSelfB, hq, h2, h3] at h
    simpa [h1, h4] using h
  · trivial

/-- `AlongNet`, computed. -/
def alongNetB (ok : NetSys T → Address → NAct T → Bool) : NetSys T → List (Address × NAct T) → Bool
  | _, [] => true
  | N, (a, x) :: as =>
    ok N a x &&
    match N.act a x with
    | some N' => alongNetB ok N' as
    | none => true

theorem alongNetB_sound {ok : NetSys T → Address → NAct T → Bool} {ok' : NetSys T → Address → NAct T → Prop} :
    ∀ (as : List (Address × NAct T)) (N : NetSys T), (∀ N, ∀ y ∈ as, ok N y.1 y.2 = true → ok' N y.1 y.2) →
      alongNetB ok N as = true → AlongNet ok' N as := by
  intro as
  induction as with
  | nil => intro N _ _; trivial
  | cons y as ih =>
    obtain ⟨a, x⟩ := y
    intro N hs h
    simp only [alongNetB, Bool.and_eq_true] at h
    refine ⟨hs N (a, x) (by simp) h.1, fun N' hN => ?_⟩
    have h2 := h.2
    rw [hN] at h2
    exact ih N' (fun N y hy => hs N y (by simp [hy])) h2

end

namespace NetDemo

abbrev C := StDemo.C

/-- Five validators of weight 2, 4, 1, 1, 1. -/
def nodes : List Node := [⟨[1], 1, 2⟩, ⟨[2], 1, 4⟩, ⟨[3], 1, 1⟩, ⟨[4], 1, 1⟩, ⟨[5], 1, 1⟩]
/-- The last three are faulty: a third of the weight. -/
def correct (a : Address) : Bool := a == [1] || a == [2]
def lists : Nat → List Node := fun _ => nodes

theorem goodLists : GoodLists lists := fun _ => by
  show Distinct nodes ∧ Sized nodes
  constructor <;> simp [Distinct, Sized, nodes]
theorem fewFaulty : FewFaulty lists correct := fun _ => by
  show 3 * weight nodes (fun a => !correct a) ≤ total nodes
  decide +kernel

/-- The environment of validator `a`, whose storage returns `load` at a start. -/
def envN (a : UInt8) (load : Option (Option Bytes)) : Env C :=
  { crypto := StDemo.crypto [a], mode := .rotation, sh := .same, walSave := fun _ => true, walLoad := load, getBlock := fun _ => none,
    commit := fun h _ => some { height := h + 1, interval := none, timerConfig := none, authorityList := nodes } }

theorem envN_answers (a : UInt8) (w : Option (Option Bytes)) : CommitsAnswered (envN a w) := by
  intro k c st h
  simp only [envN, Option.some.injEq] at h
  subst h
  refine ⟨Nat.lt_succ_self k, ?_⟩
  have key : ∀ x, (Authority.update nodes).getProposer .rotation (k + 1) INIT_ROUND ≠ .error x := by
    intro x hx
    simp only [Authority.getProposer, rotationLeaderIndex] at hx
    split at hx
    · rename_i h0; exact absurd h0 (by decide +kernel)
    · simp only [bind, Except.bind] at hx
      split at hx
      · cases hx
      · rename_i hn
        rw [List.getElem?_eq_none_iff] at hn
        have hlen : (Authority.update nodes).address.length = 5 := by decide +kernel
        rw [hlen] at hn
        have := Nat.mod_lt (((k + 1) * leaderStride (5 % U32) + INIT_ROUND) % U64) (show 0 < 5 % U32 by decide)
        have h4 : 5 % U32 = 5 := by decide
        omega
  cases hg : (Authority.update nodes).getProposer .rotation (k + 1) INIT_ROUND with
  | ok l => exact ⟨l, hg⟩
  | error x => exact absurd hg (key x)

/-- A certificate signed by the given validators. -/
def cert (voters : List UInt8) (h r : Nat) (ty : VoteType) (hash : Hash) : AggregatedVote :=
  { signature := ⟨voters.flatMap (fun a => a :: encVote ⟨h, r, ty, hash⟩),
      (Authority.update nodes).bitmapOf (voters.map fun a => [a])⟩,
    voteType := ty, height := h, round := r, blockHash := hash,
    leader := ((Authority.update nodes).getProposer .rotation h r).toOption.getD [] }
def prop (p : UInt8) (h r : Nat) (content : C) (hash : Hash) (lock : Option PoLC) : SignedProposal C :=
  let x : Proposal C := { height := h, round := r, content, blockHash := hash, lock := lock, proposer := [p] }
  ⟨p :: (encProposal x).getD [], x⟩

/-- Steps of a node in this setting. -/
inductive D where
  | raw (m : OverlordMsg C) | event (cut : Option Nat) | resp | verified | vdone | cdone | smr | set | expire (i : Nat) | fire (i : Nat)
  | crash | start (w : Option (WalInfo C))

def params : StartParams := { initHeight := 9, interval := 3000, list := nodes, timerConfig := none }

def D.to (a : UInt8) : D → NAct C
  | .raw m => .arm (.raw m) (envN a (some none)) none
  | .event cut => .arm .event (envN a (some none)) cut
  | .resp => .arm .resp (envN a (some none)) none
  | .verified => .arm .verified (envN a (some none)) none
  | .vdone => .verifyDone (StDemo.crypto [a]) 0
  | .cdone => .checkDone 0 true
  | .smr => .smr
  | .set => .set
  | .expire i => .expire i
  | .fire i => .fire i
  | .crash => .crash
  | .start w => .start params (envN a (some (w.bind encWalInfo))) none

def sched (l : List (UInt8 × List D)) : List (Address × NAct C) := l.flatMap fun y => y.2.map fun d => ([y.1], d.to y.1)

theorem mem_sched {l : List (UInt8 × List D)} {y : Address × NAct C} (h : y ∈ sched l) : ∃ a d, y = ([a], D.to a d) := by
  simp only [sched, List.mem_flatMap, List.mem_map] at h
  obtain ⟨z, _, d, _, rfl⟩ := h
  exact ⟨_, _, rfl⟩

/-- The part of `NetStep` that depends on the state of the network, computed. -/
def stepB (N : NetSys C) (a : Address) (x : NAct C) : Bool :=
  !correct a || (inSyncB (N.nodes a) x && roundSmallB (N.nodes a) x && startOkB a (N.nodes a) x &&
    genuineInputB lists correct N.votes (N.nodes a) x)

theorem stepB_sound {l : List (UInt8 × List D)} (h : alongNetB stepB NetSys.new (sched l) = true) :
    FairSchedule lists correct (sched l) := by
  refine alongNetB_sound _ _ (fun N y hy hb hc => ?_) h
  simp only [stepB, hc, Bool.not_true, Bool.false_or, Bool.and_eq_true] at hb
  obtain ⟨⟨⟨h1, h2⟩, h3⟩, h4⟩ := hb
  obtain ⟨a, d, rfl⟩ := mem_sched hy
  refine ⟨inSyncB_sound h1, roundSmallB_sound h2, startOkB_sound h3, ?_, ?_, ?_, genuineInputB_sound h4⟩
  · cases d <;> first | exact envN_answers _ _ | trivial
  · cases d <;> first | (intro b; rfl) | trivial
  · have hl : ∀ w k c st, (envN a w).commit k c = some st → st.authorityList = lists st.height := by
      intro w k c st hst
      simp only [envN, Option.some.injEq] at hst
      subst hst; rfl
    cases d <;> first | exact hl _ | exact ⟨hl _, fun _ => rfl⟩ | trivial

/-- `KeepsLocks`, computed. -/
def keepsB (N : NetSys C) (a : Address) (x : NAct C) : Bool := !correct a || noSelfB lists correct N.votes (N.nodes a) x

theorem keepsB_sound {as : List (Address × NAct C)} (h : alongNetB keepsB NetSys.new as = true) : KeepsLocks lists correct as := by
  refine alongNetB_sound _ _ (fun N y hy hb hc => ?_) h
  simp only [keepsB, hc, Bool.not_true, Bool.false_or] at hb
  exact noSelfB_sound hb

/-- A message arrives, is verified and taken up. -/
def dl (m : OverlordMsg C) : List D := [.raw m, .vdone, .verified]

/-- A certificate of the validators 2 to 5 in height 9. -/
def Q (r : Nat) (ty : VoteType) (h : Hash) : AggregatedVote := cert [2, 3, 4, 5] 9 r ty h

/-- The block `[5, 5]` with hash `[5]`, proposed in round 0 by validator 3. -/
def propA : SignedProposal C := prop 3 9 0 [5, 5] [5] none

/-- A node gets the proposal, prevotes, and checks the block. -/
def begin9 : List D := [.start none] ++ dl (.signedProposal propA) ++ [.smr, .event none, .cdone, .resp]

/-- Then it precommits. -/
def lock9 : List D := begin9 ++ dl (.aggregatedVote (Q 0 .prevote [5])) ++ [.smr, .event none]

/-- Commit by the precommit certificate of round 0. -/
def commit9 : List D := dl (.aggregatedVote (Q 0 .precommit [5])) ++ [.smr, .event none]

/-- The record of the precommit. -/
def recP : WalInfo C :=
  { height := 9, round := 0, step := .precommit, lock := some ⟨0, Q 0 .prevote [5], [5, 5]⟩, «from» := .precommitQC mockInitQc }

/-- Validator 2 precommits, crashes in the middle of the next input, and restarts; validator 1 commits; validator 2 commits. -/
def agreeing : List (UInt8 × List D) :=
  [(2, lock9 ++ [.crash]), (1, begin9), (1, commit9), (2, [.start (some recP)] ++ dl (.signedProposal propA) ++ [.smr, .cdone, .resp, .smr] ++ commit9)]

/-- What was committed: height and hash. -/
def committed (n : NodeSys C) : List (Nat × Hash) := (commitsAt n.log).map fun x => (x.1, x.2.proof.blockHash)

/-- Validator 2 after its precommit: the timeout, and chokes of the others, lead to round 1. There validator 4 proposes the block
again, with the certificate of round 0. -/
def round1 : List D :=
  [.set, .set, .set, .expire 2, .fire 0, .smr, .event none] ++
  dl (.signedChoke (StDemo.choke 3 9 0 (.precommitQC mockInitQc))) ++ dl (.signedChoke (StDemo.choke 4 9 0 (.precommitQC mockInitQc))) ++
  dl (.signedChoke (StDemo.choke 5 9 0 (.precommitQC mockInitQc))) ++ [.smr, .event none] ++
  dl (.signedProposal (prop 4 9 1 [5, 5] [5] (some ⟨0, Q 0 .prevote [5]⟩))) ++ [.smr, .event none] ++
  [.set, .set, .set, .expire 4, .fire 0, .smr, .event none] ++ dl (.aggregatedVote (Q 1 .precommit [])) ++ [.smr, .event none]

/-- In round 2 validator 5 proposes another block, with the certificate of round 1 for the first block. -/
def round2 : List D :=
  dl (.signedProposal (prop 5 9 2 [6, 6] [6] (some ⟨1, Q 1 .prevote [5]⟩))) ++ [.smr, .event none, .cdone, .cdone, .resp, .resp] ++
  dl (.aggregatedVote (Q 2 .prevote [6])) ++ [.smr, .event none] ++ dl (.aggregatedVote (Q 2 .precommit [6])) ++ [.smr, .event none]

/-- Validator 1 commits the first block, validator 2 the second. -/
def split9 : List (UInt8 × List D) := [(2, lock9), (1, begin9 ++ commit9), (2, round1 ++ round2)]

/-- A certificate signed by validator 3 alone. -/
def weak (h : Hash) : AggregatedVote := cert [3] 9 0 .precommit h

/-- Each validator gets its own proposal of the faulty leader, and a precommit certificate signed by validator 3 alone. -/
def weakly : List (UInt8 × List D) :=
  [(1, begin9 ++ dl (.aggregatedVote (weak [5])) ++ [.smr, .event none]),
   (2, [.start none] ++ dl (.signedProposal (prop 3 9 0 [6, 6] [6] none)) ++ [.smr, .event none, .cdone, .resp] ++
      dl (.aggregatedVote (weak [6])) ++ [.smr, .event none])]

theorem commit_of {l : List (Effect C)} {k : Nat} {h : Hash} {b : C}
    (hm : (commitsAt l).map (fun x => (x.1, x.2.proof.blockHash, x.2.content)) = [(k, h, b)]) :
    ∃ c r, .commitCall k c r ∈ l ∧ c.proof.blockHash = h ∧ c.content = b := by
  have : (k, h, b) ∈ (commitsAt l).map (fun x => (x.1, x.2.proof.blockHash, x.2.content)) := by rw [hm]; simp
  obtain ⟨x, hx, he⟩ := List.mem_map.1 this
  obtain ⟨y, hy, hz⟩ := List.mem_filterMap.1 hx
  cases y <;> simp at hz
  subst hz
  simp only [Prod.mk.injEq] at he
  obtain ⟨rfl, rfl, rfl⟩ := he
  exact ⟨_, _, hy, rfl, rfl⟩

end NetDemo
end Overlord
