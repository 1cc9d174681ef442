import Verif.Proofs.Blame
import Verif.Props.Light
import Verif.Props.Origin

/-!
# C71: whoever is blamed for conflicting messages is faulty
-/

set_option linter.unusedVariables false

namespace Overlord
open M Spec

variable {T : Type} [ContentCodec T] [DecidableEq T]

/-- **C71** (partial). Two valid signatures in one name on different votes for the same height, round and type prove that the signer is faulty, whatever the
others do and however many of them are faulty.
Missing: as in C31 (`CalmNet`); with stale orders it is false, see `C71_false_with_stale_orders`. -/
theorem C71_two_votes_prove_fault_partial (correct : Address → Bool) (as : List (Address × NAct T)) (N : NetSys T)
    (hr : NetSys.new.run as = some N) (ok : CalmNet correct as) (V : Crypto) (hu : Unforgeable correct N.votes V)
    (a : Address) (v w : Vote) (s t : Signature) (hv : VoteR v) (h1 : VoteSignedBy V a s v) (h2 : VoteSignedBy V a t w)
    (e1 : v.height = w.height) (e2 : v.round = w.round) (e3 : v.voteType = w.voteType) (hne : v ≠ w) : correct a = false := by
  cases hc : correct a with
  | false => rfl
  | true =>
    have hw : VoteR w := ⟨e1 ▸ hv.1, e2 ▸ hv.2⟩
    exact absurd (Blame.one_vote hr ok hc (hu.single s v a hv hc h1) (hu.single t w a hw hc h2) e1 e2 e3) hne

/-- **C71** (partial, see above). If two conflicting certificates exist that an outsider accepts, then the validators that both of them name
have more than a third of the weight, and every one of them is faulty - whatever the others do and however many of them are faulty. -/
theorem C71_conflict_names_the_faulty_partial (lists : Nat → List Node) (correct : Address → Bool) (hl : GoodLists lists)
    (as : List (Address × NAct T)) (N : NetSys T)
    (hr : NetSys.new.run as = some N) (ok : CalmNet correct as) (V : Crypto) (hu : Unforgeable correct N.votes V)
    (c d : AggregatedVote) (h : Conflict V lists c d) :
    (∀ a, Names (lists c.height) c.signature a → Names (lists c.height) d.signature a → a ∈ (lists c.height).map Node.address ∧ correct a = false) ∧
    ∃ both : Address → Bool, (∀ a, both a = true ↔ Names (lists c.height) c.signature a ∧ Names (lists c.height) d.signature a) ∧
      total (lists c.height) < 3 * weight (lists c.height) both := by
  obtain ⟨v1, x1, w1, s1⟩ := h.left
  obtain ⟨v2, x2, w2, s2⟩ := h.right
  rw [← h.height] at x2 w2
  have hd : VoteR ⟨d.height, d.round, d.voteType, d.blockHash⟩ := ⟨h.height ▸ h.inRange.1, h.round ▸ h.inRange.2⟩
  refine ⟨?_, fun a => decide (a ∈ v1) && decide (a ∈ v2), fun a => ?_, ?_⟩
  · rintro a ⟨u1, y1, m1⟩ ⟨u2, y2, m2⟩
    rw [x1] at y1; cases y1
    rw [x2] at y2; cases y2
    refine ⟨?_, ?_⟩
    · rw [extractVoters_eq _ (hl _).1] at x1
      cases x1
      obtain ⟨n, hn, rfl⟩ := List.mem_map.1 m1
      exact List.mem_map.2 ⟨n, (sortNodes_perm _).mem_iff.1 (List.mem_filter.1 hn).1, rfl⟩
    · cases hc : correct a with
      | false => rfl
      | true =>
        have := Blame.one_vote hr ok hc (hu.aggregated _ _ _ h.inRange s1 a m1 hc) (hu.aggregated _ _ _ hd s2 a m2 hc) h.height h.round h.type
        exact absurd (congrArg Vote.blockHash this) h.block
  · simp only [Bool.and_eq_true, decide_eq_true_eq, Names, x1, x2, Except.ok.injEq, exists_eq_left']
  · have := weight_inter (lists c.height) (fun a => decide (a ∈ v1)) (fun a => decide (a ∈ v2))
    omega

/-- **C71** (partial, see above). With at most a third of the weight at faulty validators there is no such conflict. -/
theorem C71_no_conflict_partial (lists : Nat → List Node) (correct : Address → Bool) (hl : GoodLists lists) (few : FewFaulty lists correct)
    (as : List (Address × NAct T)) (N : NetSys T)
    (hr : NetSys.new.run as = some N) (ok : CalmNet correct as) (V : Crypto) (hu : Unforgeable correct N.votes V)
    (c d : AggregatedVote) : ¬ Conflict V lists c d := by
  intro h
  obtain ⟨h1, both, h2, h3⟩ := C71_conflict_names_the_faulty_partial lists correct hl as N hr ok V hu c d h
  have h4 := weight_mono (lists c.height) both (fun a => !correct a) (by
    intro n _ hn
    obtain ⟨x, y⟩ := (h2 _).1 hn
    simp [(h1 _ x y).2])
  have := few c.height
  omega

/-- **C71** (partial, see above). Two signed proposals in one name for the same height and round that differ prove that the proposer is
faulty. -/
theorem C71_two_proposals_prove_fault_partial (correct : Address → Bool) (as : List (Address × NAct T)) (N : NetSys T)
    (hr : NetSys.new.run as = some N) (ok : CalmNet correct as) (V : Crypto) (hu : UnforgeableProposals correct N V)
    (p q : Proposal T) (s t : Signature) (h : TwoProposals V s t p q) : correct p.proposer = false := by
  cases hc : correct p.proposer with
  | false => rfl
  | true =>
    obtain ⟨b, e1, s1⟩ := h.left
    obtain ⟨b', e2, s2⟩ := h.right
    have hp := hu s p b h.inRange.1 e1 hc s1
    have hq := hu t q b' h.inRange.2 e2 (h.name ▸ hc) s2
    rw [← h.name] at hq
    obtain ⟨r1, r2⟩ := Blame.calm_node hr ok hc
    obtain ⟨i, hi⟩ := List.mem_iff_getElem?.1 hp
    obtain ⟨j, hj⟩ := List.mem_iff_getElem?.1 hq
    have := C70_one_proposal_per_round_partial _ _ _ r1 r2 i j p q hi hj h.height h.round
    subst this
    rw [hi] at hj
    exact absurd (Option.some.inj hj) h.differ

/-! ### Examples -/

namespace NetDemo
open Sign OriginDemo

/-- Validators 1 and 4 are correct; two thirds of the weight are faulty. -/
def few (a : Address) : Bool := a == [1] || a == [4]

/-- The leader sends different proposals to them. -/
def divided : List (Address × NAct C) :=
  sched [(1, begin9), (4, [.start none] ++ dl (.signedProposal (prop 3 9 0 [6, 6] [6] none)) ++ [.smr, .event none])]

/-- The conditions of C31, computed. -/
def calmNetB (good : Address → Bool) (N : NetSys C) (a : Address) (x : NAct C) : Bool :=
  !good a || (inSyncB (N.nodes a) x && roundSmallB (N.nodes a) x && startOkB a (N.nodes a) x)

theorem calmNetB_sound {good : Address → Bool} {as : List (Address × NAct C)} (h : alongNetB (calmNetB good) NetSys.new as = true) : CalmNet good as := by
  refine alongNetB_sound as _ (fun N y _ hb hc => ?_) h
  simp only [calmNetB, hc, Bool.not_true, Bool.false_or, Bool.and_eq_true] at hb
  exact ⟨inSyncB_sound hb.1.1, roundSmallB_sound hb.1.2, startOkB_sound hb.2⟩

/-- `Convincing`, computed. -/
def convincingB (V : Crypto) (qc : AggregatedVote) : Bool :=
  match extractVoters (lists qc.height) qc.signature.addressBitmap with
  | .ok voters => decide (2 * total (lists qc.height) < 3 * weight (lists qc.height) (fun a => decide (a ∈ voters))) &&
      V.verifyAgg qc.signature.signature (V.hash (encVote ⟨qc.height, qc.round, qc.voteType, qc.blockHash⟩)) voters
  | .error _ => false

theorem convincingB_sound {V : Crypto} {qc : AggregatedVote} (h : convincingB V qc = true) : Convincing V lists qc := by
  unfold convincingB at h
  split at h
  · rename_i voters hv
    rw [Bool.and_eq_true] at h
    exact ⟨voters, hv, of_decide_eq_true h.1, h.2⟩
  · cases h

def qc5 : AggregatedVote := cert [1, 2, 3, 5] 9 0 .prevote [5]
def qc6 : AggregatedVote := cert [2, 3, 4, 5] 9 0 .prevote [6]

/-- Both blocks get a prevote certificate; validators 2, 3 and 5 are named by both. -/
example : ∃ N, NetSys.new.run divided = some N ∧ CalmNet few divided ∧ Unforgeable few N.votes (ideal few N.votes) ∧
    Conflict (ideal few N.votes) lists qc5 qc6 ∧
    VoteSignedBy (ideal few N.votes) [3] [] ⟨9, 0, .prevote, [5]⟩ ∧ VoteSignedBy (ideal few N.votes) [3] [] ⟨9, 0, .prevote, [6]⟩ ∧
    (∀ x ∈ N.votes, x.1 = [1] ∨ x.1 = [4]) := by
  have hd : (match NetSys.new.run divided with
      | some N => convincingB (ideal few N.votes) qc5 && convincingB (ideal few N.votes) qc6 && N.votes.all fun x => x.1 == [1] || x.1 == [4]
      | none => false) = true := by decide +kernel
  split at hd
  · rename_i N hN
    simp only [Bool.and_eq_true] at hd
    refine ⟨N, hN, calmNetB_sound (by decide +kernel), ideal_unforgeable _ _,
      ⟨convincingB_sound hd.1.1, convincingB_sound hd.1.2, rfl, rfl, rfl, by decide, ⟨by decide, by decide⟩⟩, rfl, rfl, fun x hx => ?_⟩
    have := List.all_eq_true.1 hd.2 x hx
    simpa [Bool.or_eq_true] using this
  · cases hd

/-- `UnforgeableProposals` in the ideal scheme. -/
theorem idealP_proposals (good : Address → Bool) (N : NetSys C) : UnforgeableProposals good N (idealP good N) := by
  intro s p b hr he hg hv
  obtain ⟨sp, h1, h2⟩ := idealP_unforged good N 0 s p b hr he hg hv
  exact List.mem_filterMap.2 ⟨_, h2, by simp [h1]⟩

/-- Two proposals of the faulty leader. -/
example : ∃ N, NetSys.new.run divided = some N ∧ CalmNet few divided ∧ UnforgeableProposals few N (idealP few N) ∧
    TwoProposals (idealP few N) [] [] (prop 3 9 0 [5, 5] [5] none).proposal (prop 3 9 0 [6, 6] [6] none).proposal := by
  cases hN : NetSys.new.run divided with
  | none => exact absurd hN (by decide +kernel)
  | some N =>
    exact ⟨N, rfl, calmNetB_sound (by decide +kernel), idealP_proposals _ _, ⟨_, rfl, rfl⟩, ⟨_, rfl, rfl⟩, rfl, rfl, rfl, by decide,
      ⟨by decide, by decide, fun _ h => nomatch h⟩, by decide, by decide, fun _ h => nomatch h⟩

end NetDemo

namespace StDemo

/-- Only validator 1 is correct. -/
def first (a : Address) : Bool := a == [1]

/-- A certificate of height 8 in the name of all. -/
def all8 (h : Hash) : AggregatedVote := cert [1, 2, 3, 4] 8 0 .prevote h

end StDemo

/-- C71 is false in general: the correct node of `C31_false_with_stale_orders` is named by two conflicting certificates. -/
theorem C71_false_with_stale_orders : ∃ N, (NetSys.new.run (StDemo.stale.map fun x => (([1] : Address), x))) = some N ∧
    Unforgeable StDemo.first N.votes (Sign.ideal StDemo.first N.votes) ∧
    Conflict (Sign.ideal StDemo.first N.votes) (fun _ => StDemo.nodes) (StDemo.all8 [5]) (StDemo.all8 [9]) ∧
    Names StDemo.nodes (StDemo.all8 [5]).signature [1] ∧ Names StDemo.nodes (StDemo.all8 [9]).signature [1] ∧ StDemo.first [1] = true := by
  have hd : (match NetSys.new.run (StDemo.stale.map fun x => (([1] : Address), x)) with
      | some N => [[5], [9]].all fun h => match extractVoters StDemo.nodes (StDemo.all8 h).signature.addressBitmap with
        | .ok voters => decide (2 * total StDemo.nodes < 3 * weight StDemo.nodes (fun a => decide (a ∈ voters))) && decide ([1] ∈ voters) &&
            (Sign.ideal StDemo.first N.votes).verifyAgg (StDemo.all8 h).signature.signature (encVote ⟨8, 0, .prevote, h⟩) voters
        | .error _ => false
      | none => false) = true := by decide +kernel
  split at hd
  · rename_i N hN
    have key : ∀ h ∈ ([[5], [9]] : List Hash), Convincing (Sign.ideal StDemo.first N.votes) (fun _ => StDemo.nodes) (StDemo.all8 h) ∧
        Names StDemo.nodes (StDemo.all8 h).signature [1] := by
      intro h hh
      have := List.all_eq_true.1 hd h hh
      split at this
      · rename_i voters hv
        simp only [Bool.and_eq_true] at this
        exact ⟨⟨voters, hv, of_decide_eq_true this.1.1, this.2⟩, voters, hv, of_decide_eq_true this.1.2⟩
      · cases this
    have k5 := key [5] (by simp)
    have k9 := key [9] (by simp)
    exact ⟨N, hN, Sign.ideal_unforgeable _ _, ⟨k5.1, k9.1, rfl, rfl, rfl, by decide, ⟨by decide, by decide⟩⟩, k5.2, k9.2, rfl⟩
  · cases hd

end Overlord
