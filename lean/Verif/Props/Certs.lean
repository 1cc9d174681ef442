import Verif.Proofs.Certs2
import Verif.Proofs.StateDemo

/-!
# C77 — the leader makes a certificate exactly when the votes suffice, whatever their order

English: to a node that has nothing collected for its height and round, verified votes are handed one after the
other, of whatever voters, heights, rounds and types. It broadcasts a certificate for a block exactly if the
validators whose first vote for its height, round and the type is for that block have more than two thirds of the
weight. So certificates are made for one block at most, and which, if any, does not depend on the order in which
the votes come, the iteration orders, or the votes of others than validators.
-/

set_option linter.unusedSectionVars false

namespace Overlord
open M Spec

variable {T : Type} [ContentCodec T] [DecidableEq T]

/-- **C77.** A certificate for `x` is broadcast exactly if the validators whose first vote is for `x` have more than
two thirds of the weight. -/
theorem C77_certificate_iff_two_thirds (l : List Node) (hd : Distinct l) (hz : Sized l) (ht : total l < 2 ^ 32)
    (s : State T) (ty : VoteType) (hpw : s.consensusPower = true) (hw : NoWrap s) (ha : s.authority = Authority.update l)
    (hu : Untouched s ty) (vs : List (Env T × SignedVote)) (hg : Aggregates vs) (x : Hash) :
    x ∈ certified (s.trace (handVotes vs)) s.height s.round ty ↔
      Quorum l (votedFor (asHistory vs) s.height s.round ty x) := by
  obtain ⟨hL, hR, hn⟩ := Certs.led_start ha hu
  constructor
  · intro hx
    simpa using Certs.sound hd hz vs s [] [] hpw hw hL hR x hx
  · intro hq
    refine Certs.complete hd hz ht vs s [] [] hpw hw hL hR hn (fun y hy => ?_) hg x (by simpa using hq)
    have : weight l (votedFor [] s.height s.round ty y) = 0 := by
      simp [weight, votedFor, firstVote]
    unfold Quorum at hy
    omega

/-- **C77, no more than two thirds needed for safety.** Whatever the total weight and whatever aggregation does: a
certificate is only broadcast for a block with more than two thirds. -/
theorem C77_only_with_two_thirds (l : List Node) (hd : Distinct l) (hz : Sized l)
    (s : State T) (ty : VoteType) (hpw : s.consensusPower = true) (hw : NoWrap s) (ha : s.authority = Authority.update l)
    (hu : Untouched s ty) (vs : List (Env T × SignedVote)) (x : Hash)
    (hx : x ∈ certified (s.trace (handVotes vs)) s.height s.round ty) :
    Quorum l (votedFor (asHistory vs) s.height s.round ty x) := by
  obtain ⟨hL, hR, _⟩ := Certs.led_start ha hu
  simpa using Certs.sound hd hz vs s [] [] hpw hw hL hR x hx

/-- **C77, one block.** All certificates broadcast for the height, round and type are for the same block. -/
theorem C77_one_block (l : List Node) (hd : Distinct l) (hz : Sized l)
    (s : State T) (ty : VoteType) (hpw : s.consensusPower = true) (hw : NoWrap s) (ha : s.authority = Authority.update l)
    (hu : Untouched s ty) (vs : List (Env T × SignedVote)) (x y : Hash)
    (hx : x ∈ certified (s.trace (handVotes vs)) s.height s.round ty)
    (hy : y ∈ certified (s.trace (handVotes vs)) s.height s.round ty) : x = y :=
  C12_at_most_one_elected _ l _ _ _ x y (C77_only_with_two_thirds l hd hz s ty hpw hw ha hu vs x hx)
    (C77_only_with_two_thirds l hd hz s ty hpw hw ha hu vs y hy)

/-- **C77, once.** If all the votes are for the height, round and type, one certificate at most is broadcast. -/
theorem C77_once (l : List Node) (hd : Distinct l) (hz : Sized l)
    (s : State T) (ty : VoteType) (hpw : s.consensusPower = true) (hw : NoWrap s) (ha : s.authority = Authority.update l)
    (hu : Untouched s ty) (vs : List (Env T × SignedVote))
    (hs : ∀ p ∈ vs, p.2.vote.height = s.height ∧ p.2.vote.round = s.round ∧ p.2.vote.voteType = ty) :
    (certified (s.trace (handVotes vs)) s.height s.round ty).length ≤ 1 :=
  (Certs.once hd hz vs hs s [] hpw hw (Certs.led_start ha hu).1).1

/-- Nobody votes twice for the same height, round and type. -/
def VotesOnce (vs : List (Env T × SignedVote)) : Prop :=
  ∀ p ∈ vs, ∀ q ∈ vs, p.2.voter = q.2.voter → p.2.vote.height = q.2.vote.height → p.2.vote.round = q.2.vote.round →
    p.2.vote.voteType = q.2.vote.voteType → p.2.vote.blockHash = q.2.vote.blockHash

theorem votedFor_of_once {vs : List (Env T × SignedVote)} (ho : VotesOnce vs) (h r : Nat) (ty : VoteType) (x : Hash) (a : Address) :
    votedFor (asHistory vs) h r ty x a = true ↔ ∃ p ∈ vs, p.2.vote.height = h ∧ p.2.vote.round = r ∧ p.2.vote.voteType = ty ∧
      p.2.voter = a ∧ p.2.vote.blockHash = x := by
  have hmem : ∀ sv, VoteOp.vote sv ∈ asHistory vs ↔ ∃ p ∈ vs, p.2 = sv := by
    intro sv; simp [asHistory]
  have hnone : ∀ ops : List VoteOp, firstVote ops h r ty a = none → ∀ sv, VoteOp.vote sv ∈ ops →
      ¬ (sv.vote.height = h ∧ sv.vote.round = r ∧ sv.vote.voteType = ty ∧ sv.voter = a) := by
    intro ops
    induction ops with
    | nil => intro _ sv hs; simp at hs
    | cons op ops ih =>
      intro hf sv hs
      cases op with
      | qc q =>
        simp only [firstVote] at hf
        simp only [List.mem_cons, reduceCtorEq, false_or] at hs
        exact ih hf sv hs
      | vote v =>
        simp only [firstVote] at hf
        split at hf
        · cases hf
        · rename_i hc
          simp only [List.mem_cons, VoteOp.vote.injEq] at hs
          rcases hs with rfl | hs
          · exact hc
          · exact ih hf sv hs
  unfold votedFor
  cases hf : firstVote (asHistory vs) h r ty a with
  | none =>
    simp only [Bool.false_eq_true, false_iff]
    rintro ⟨p, hp, h1, h2, h3, h4, _⟩
    exact hnone _ hf p.2 ((hmem _).2 ⟨p, hp, rfl⟩) ⟨h1, h2, h3, h4⟩
  | some sv =>
    obtain ⟨hm, h1, h2, h3, h4⟩ := firstVote_spec hf
    obtain ⟨p, hp, rfl⟩ := (hmem sv).1 hm
    simp only [beq_iff_eq]
    constructor
    · intro hx; exact ⟨p, hp, h1, h2, h3, h4, hx⟩
    · rintro ⟨q, hq, g1, g2, g3, g4, rfl⟩
      exact ho p hp q hq (by rw [h4, g4]) (by rw [h1, g1]) (by rw [h2, g2]) (by rw [h3, g3])

/-- **C77, order.** If nobody contradicts himself, the certificates are for the same block in whatever order the
votes come and whatever else differs between the two runs. -/
theorem C77_order_does_not_matter (l : List Node) (hd : Distinct l) (hz : Sized l) (ht : total l < 2 ^ 32)
    (s : State T) (ty : VoteType) (hpw : s.consensusPower = true) (hw : NoWrap s) (ha : s.authority = Authority.update l)
    (hu : Untouched s ty) (vs vs' : List (Env T × SignedVote)) (hg : Aggregates vs) (hg' : Aggregates vs')
    (hp : (vs.map Prod.snd).Perm (vs'.map Prod.snd)) (ho : VotesOnce vs) (x : Hash) :
    x ∈ certified (s.trace (handVotes vs)) s.height s.round ty ↔
      x ∈ certified (s.trace (handVotes vs')) s.height s.round ty := by
  have hin : ∀ {us ws : List (Env T × SignedVote)}, (us.map Prod.snd).Perm (ws.map Prod.snd) → ∀ p ∈ us, ∃ q ∈ ws, q.2 = p.2 := by
    intro us ws hpm p hq
    have := hpm.subset (List.mem_map_of_mem hq)
    simpa using this
  have ho' : VotesOnce vs' := by
    intro p hp1 q hq1
    obtain ⟨p', hp', ep⟩ := hin hp.symm p hp1
    obtain ⟨q', hq', eq⟩ := hin hp.symm q hq1
    rw [← ep, ← eq]
    exact ho p' hp' q' hq'
  have hvf : ∀ a, votedFor (asHistory vs) s.height s.round ty x a = votedFor (asHistory vs') s.height s.round ty x a := by
    intro a
    rw [Bool.eq_iff_iff, votedFor_of_once ho, votedFor_of_once ho']
    constructor
    · rintro ⟨p, hp1, hh⟩
      obtain ⟨q, hq, eq⟩ := hin hp p hp1
      exact ⟨q, hq, by rw [eq]; exact hh⟩
    · rintro ⟨p, hp1, hh⟩
      obtain ⟨q, hq, eq⟩ := hin hp.symm p hp1
      exact ⟨q, hq, by rw [eq]; exact hh⟩
  rw [C77_certificate_iff_two_thirds l hd hz ht s ty hpw hw ha hu vs hg x,
    C77_certificate_iff_two_thirds l hd hz ht s ty hpw hw ha hu vs' hg' x]
  exact Certs.quorum_congr fun n _ => hvf n.address

/-! ## In any company

The same, whatever else the node takes up meanwhile (proposals, chokes, outcomes of checks, timers, orders of the voting
logic, certificates of other rounds, heights and types), and with its own votes, as long as it stays at its height and
round, its storage of records may fail or not, and no certificate for the slot is handed in. -/

theorem count_start {s : State T} {l : List Node} {ty : VoteType} (ha : s.authority = Authority.update l) (hu : Untouched s ty) :
    Certs.Count l s.height s.round ty s [] [] ∧ Certs.noCert s.height s.round ty s ∧
      ∀ x, ¬ Quorum l (votedFor [] s.height s.round ty x) := by
  obtain ⟨hL, _, hn⟩ := Certs.led_start ha hu
  have h0 : ∀ x, ¬ Quorum l (votedFor [] s.height s.round ty x) := by
    intro x hx
    have : weight l (votedFor [] s.height s.round ty x) = 0 := by simp [weight, votedFor, firstVote]
    unfold Quorum at hx
    omega
  exact ⟨⟨hL, .inl ⟨hn, fun _ _ => rfl, h0⟩⟩, hn, h0⟩

/-- **C77, in any company.** Over any history in which the node stays in its round, it broadcasts a certificate for `x`
exactly if the validators (itself among them) whose first vote, handed in or own, is for `x` have more than two
thirds. -/
theorem C77_in_any_company (l : List Node) (hd : Distinct l) (hz : Sized l) (ht : total l < 2 ^ 32)
    (s : State T) (ty : VoteType) (hpw : s.consensusPower = true) (hw : NoWrap s) (ha : s.authority = Authority.update l)
    (hm : s.address ∈ l.map Node.address) (hu : Untouched s ty) (ins : List (Env T × Input T)) (hs : KeepsItsRound ty s ins)
    (hg : ∀ p ∈ ins, ∀ sigs voters, (p.1.crypto.aggregate sigs voters).isSome) (x : Hash) :
    x ∈ certified (s.trace ins) s.height s.round ty ↔
      Quorum l (votedFor (votesSeen s ins) s.height s.round ty x) := by
  obtain ⟨hc, hn, h0⟩ := count_start ha hu
  constructor
  · intro hx
    simpa using Certs.sound_all hd hz ins s [] [] hpw hw hm hc hs x hx
  · intro hq
    exact Certs.complete_all hd hz ht ins s [] [] hpw hw hm hc hs h0 hn hg x (by simpa using hq)

/-- **C77, in any company, one block.** Whatever the weights and whatever aggregation does, a certificate is only
broadcast for a block with more than two thirds, and all of them are for the same block. -/
theorem C77_one_block_in_any_company (l : List Node) (hd : Distinct l) (hz : Sized l)
    (s : State T) (ty : VoteType) (hpw : s.consensusPower = true) (hw : NoWrap s) (ha : s.authority = Authority.update l)
    (hm : s.address ∈ l.map Node.address) (hu : Untouched s ty) (ins : List (Env T × Input T)) (hs : KeepsItsRound ty s ins) :
    (∀ x ∈ certified (s.trace ins) s.height s.round ty, Quorum l (votedFor (votesSeen s ins) s.height s.round ty x)) ∧
      ∀ x ∈ certified (s.trace ins) s.height s.round ty, ∀ y ∈ certified (s.trace ins) s.height s.round ty, x = y := by
  have key : ∀ x ∈ certified (s.trace ins) s.height s.round ty, Quorum l (votedFor (votesSeen s ins) s.height s.round ty x) := by
    intro x hx
    simpa using Certs.sound_all hd hz ins s [] [] hpw hw hm (count_start ha hu).1 hs x hx
  exact ⟨key, fun x hx y hy => C12_at_most_one_elected _ l _ _ _ x y (key x hx) (key y hy)⟩

/-! ## A case -/

namespace LeaderDemo
open StDemo

/-- A stranger, a vote of another round, and the four validators: one of them for another block. -/
def ballots : List (Env C × SignedVote) :=
  [(env, vote 9 7 0 .prevote [8]), (env, vote 2 7 0 .prevote [9]), (env, vote 3 7 0 .prevote [8]),
   (env, vote 4 7 0 .prevote [9]), (env, vote 2 7 1 .prevote [8]), (env, vote 1 7 0 .prevote [9])]

theorem untouched : Untouched st0 .prevote :=
  ⟨by decide, by decide, fun a => by simp [keptVote, st0, State.new, VoteCollector.pool]⟩

theorem aggregates : Aggregates ballots := by
  intro p hp sigs voters
  simp only [ballots, List.mem_cons, List.not_mem_nil, or_false] at hp
  rcases hp with rfl | rfl | rfl | rfl | rfl | rfl <;> rfl

theorem once : VotesOnce ballots := by unfold VotesOnce; decide +kernel

/-- The node gets to round 3 of height 7, which it leads, and proposes. -/
def before : List (Env C × Input C) :=
  [(env, .verified (.aggregatedVote (cert [2, 3, 4] 7 2 .prevote []))), (env, .event (.newRoundInfo 7 3 none none (.prevoteQC 2) none none))]

def led : State C := (st0.after before).getD st0

/-- Its own vote, a stranger's vote, votes of the others, one for another block, a choke, a check, a proposal that is
not the leader's, a vote of another round. -/
def life : List (Env C × Input C) :=
  [(env, .verified (.signedVote (vote 9 7 3 .prevote [8]))), (env, .verified (.signedVote (vote 3 7 3 .prevote [8]))),
   (env, .verified (.signedVote (vote 2 7 3 .prevote [9]))), (env, .event (.prevoteVote 7 3 [9] none)),
   (env, .verified (.signedChoke (choke 4 7 3 (.chokeQC ⟨7, 2, [], []⟩)))), (env, .resp ⟨7, 3, [9], true⟩),
   (env, .verified (.signedProposal (prop 2 7 3 [8, 8] [8]))), (env, .verified (.signedVote (vote 3 7 4 .prevote [8]))),
   (env, .verified (.signedVote (vote 4 7 3 .prevote [9])))]

/-- `AtItsRound` by computation, for inputs that bring no certificate at all. -/
def inRoundB (e : Env C) (i : Input C) (s : State C) : Bool :=
  (match (runArm i e ⟨s, []⟩).1 with | .ok b => b | .error _ => false) &&
  (match i with
    | .start => false
    | .verified (.aggregatedVote _) => false
    | .verified (.signedChoke sc) => (match sc.choke.from with | .chokeQC _ => true | _ => false)
    | _ => true) &&
  decide ((next e i s).height = s.height) && decide ((next e i s).round = s.round) &&
  decide ((next e i s).authority = s.authority) && decide ((next e i s).consensusPower = s.consensusPower) &&
  decide ((next e i s).address = s.address)

def staysB (s : State C) : List (Env C × Input C) → Bool
  | [] => true
  | (e, i) :: ins => inRoundB e i s && staysB (next e i s) ins

theorem staysB_sound {ty : VoteType} (ins : List (Env C × Input C)) : ∀ s, staysB s ins = true → KeepsItsRound ty s ins := by
  induction ins with
  | nil => intro s _; exact trivial
  | cons p ins ih =>
    intro s hs
    obtain ⟨e, i⟩ := p
    simp only [staysB, inRoundB, Bool.and_eq_true, decide_eq_true_eq] at hs
    obtain ⟨⟨⟨⟨⟨⟨⟨h1, h2⟩, h3⟩, h4⟩, h5⟩, h6⟩, h7⟩, hr⟩ := hs
    refine ⟨⟨?_, ?_, h3, h4, h5, h6, h7, ?_⟩, ih _ hr⟩
    · split at h1
      · rename_i b hb; rw [hb, h1]
      · cases h1
    · rintro rfl; cases h2
    · rintro qc (rfl | ⟨sc, rfl, hsc⟩)
      · cases h2
      · dsimp only at h2
        rcases hsc with hsc | hsc <;> rw [hsc] at h2 <;> cases h2

theorem led_untouched : Untouched led .prevote := by
  have hp : led.votes.pool led.height led.round .prevote = none := by decide +kernel
  refine ⟨by decide +kernel, by decide +kernel, fun a => ?_⟩
  unfold keptVote
  rw [hp]; rfl

end LeaderDemo

open LeaderDemo StDemo in
example : led.round = 3 ∧ led.isLeader = true ∧ certified (led.trace life) 7 3 .prevote = [[9]] ∧
    ownVotes (led.trace life) = [.vote (vote 1 7 3 .prevote [9])] := by decide +kernel

open LeaderDemo StDemo in
/-- The hypotheses of the general statement are met and the certificate is made, at the last vote. -/
example : [9] ∈ certified (led.trace life) led.height led.round .prevote :=
  (C77_in_any_company nodes (by unfold Distinct; decide) (by unfold Sized; decide) (by decide) led .prevote (by decide +kernel)
    (by unfold NoWrap; decide +kernel) (by decide +kernel) (by decide +kernel) led_untouched life (staysB_sound _ _ (by decide +kernel))
    (by
      intro p hp sigs voters
      simp only [life, List.mem_cons, List.not_mem_nil, or_false] at hp
      rcases hp with rfl | rfl | rfl | rfl | rfl | rfl | rfl | rfl | rfl <;> rfl) [9]).2 (by decide +kernel)

open LeaderDemo StDemo in
example : certified (st0.trace (handVotes ballots)) 7 0 .prevote = [[9]] ∧
    certified (st0.trace (handVotes ballots.reverse)) 7 0 .prevote = [[9]] := by decide +kernel

open LeaderDemo StDemo in
/-- The hypotheses are met and the certificate is made. -/
example : [9] ∈ certified (st0.trace (handVotes ballots)) st0.height st0.round .prevote :=
  (C77_certificate_iff_two_thirds nodes (by unfold Distinct; decide) (by unfold Sized; decide) (by decide) st0 .prevote rfl
    (by unfold NoWrap; decide) rfl untouched ballots aggregates [9]).2 (by decide)

open LeaderDemo StDemo in
/-- **Made again.** After its certificate, a vote for a later round makes the leader count the votes of its own round
again, and broadcast the certificate again. -/
theorem C77_made_again : certified (st0.trace (handVotes (ballots ++ [(env, vote 3 7 1 .prevote [])]))) 7 0 .prevote = [[9], [9]] := by
  decide +kernel

end Overlord
