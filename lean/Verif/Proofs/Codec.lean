import Verif.Spec.Codec
import Verif.Proofs.Rlp

/-! Round trips of the codec. -/

set_option linter.unusedSimpArgs false

namespace Overlord
open Spec

theorem fits_iff {b : Bytes} : Fits b ↔ b.length < U64 := Iff.rfl

/-- Every item of a list that fits, fits. -/
theorem items_fit {l : List Bytes} (h : Fits (encList l)) : ∀ b ∈ l, b.length < U64 :=
  fun _ hb => Nat.lt_trans (mem_encList_length hb) h

theorem VoteType.ofU8_toU8 (t : VoteType) : VoteType.ofU8 t.toU8 = .ok t := by cases t <;> rfl
theorem VoteType.toU8_lt (t : VoteType) : t.toU8 < 256 := by cases t <;> decide
theorem Step.ofU8_toNat (s : Step) : Step.ofU8 s.toNat = .ok s := by cases s <;> rfl
theorem Step.toNat_lt (s : Step) : s.toNat < 256 := by cases s <;> decide

@[simp] theorem except_bind_ok {α β : Type} (x : α) (f : α → Except DErr β) :
    (Except.ok x >>= f) = f x := rfl
@[simp] theorem except_pure {α : Type} (x : α) : (pure x : Except DErr α) = .ok x := rfl

theorem rt_aggSig (x : AggregatedSignature) (h : Fits (encAggSig x)) :
    decAggSig (encAggSig x) = .ok x ∧ IsItem (encAggSig x) := by
  have hm := items_fit h
  simp only [List.forall_mem_cons, List.not_mem_nil, false_implies, implies_true, and_true] at hm
  refine ⟨?_, encList_isItem h⟩
  unfold decAggSig encAggSig
  rw [listOf_enc (n := 2) h (by
    simp only [List.forall_mem_cons, List.not_mem_nil, false_implies, implies_true, and_true]
    exact ⟨encStr_isItem hm.1, encStr_isItem hm.2⟩) rfl]
  simp [decStr_enc hm.1, decStr_enc hm.2]

theorem rt_aggVote (x : AggregatedVote) (hr : AggVoteR x) (h : Fits (encAggVote x)) :
    decAggVote (encAggVote x) = .ok x ∧ IsItem (encAggVote x) := by
  have hm := items_fit h
  simp only [List.forall_mem_cons, List.not_mem_nil, false_implies, implies_true, and_true] at hm
  obtain ⟨h1, _, _, _, h5, h6⟩ := hm
  have r1 := rt_aggSig x.signature h1
  refine ⟨?_, encList_isItem h⟩
  unfold decAggVote encAggVote
  rw [listOf_enc (n := 6) h (by
    simp only [List.forall_mem_cons, List.not_mem_nil, false_implies, implies_true, and_true]
    exact ⟨r1.2, encInt_isItem _, encInt_isItem _, encInt_isItem _, encStr_isItem h5,
      encStr_isItem h6⟩) rfl]
  simp [r1.1, decInt1_enc x.voteType.toU8_lt, VoteType.ofU8_toU8, decInt8_enc hr.1,
    decInt8_enc hr.2, decStr_enc h5, decStr_enc h6]

theorem rt_polc (x : PoLC) (hr : PoLCR x) (h : Fits (encPoLC x)) :
    decPoLC (encPoLC x) = .ok x ∧ IsItem (encPoLC x) := by
  have hm := items_fit h
  simp only [List.forall_mem_cons, List.not_mem_nil, false_implies, implies_true, and_true] at hm
  have r1 := rt_aggVote x.lockVotes hr.2 hm.2
  refine ⟨?_, encList_isItem h⟩
  unfold decPoLC encPoLC
  rw [listOf_enc (n := 2) h (by
    simp only [List.forall_mem_cons, List.not_mem_nil, false_implies, implies_true, and_true]
    exact ⟨encInt_isItem _, r1.2⟩) rfl]
  simp [r1.1, decInt8_enc hr.1]

theorem rt_vote (x : Vote) (hr : VoteR x) (h : Fits (encVote x)) :
    decVote (encVote x) = .ok x ∧ IsItem (encVote x) := by
  have hm := items_fit h
  simp only [List.forall_mem_cons, List.not_mem_nil, false_implies, implies_true, and_true] at hm
  obtain ⟨_, _, _, h4⟩ := hm
  refine ⟨?_, encList_isItem h⟩
  unfold decVote encVote
  rw [listOf_enc (n := 4) h (by
    simp only [List.forall_mem_cons, List.not_mem_nil, false_implies, implies_true, and_true]
    exact ⟨encInt_isItem _, encInt_isItem _, encInt_isItem _, encStr_isItem h4⟩) rfl]
  simp [decInt1_enc x.voteType.toU8_lt, VoteType.ofU8_toU8, decInt8_enc hr.1,
    decInt8_enc hr.2, decStr_enc h4]

theorem rt_signedVote (x : SignedVote) (hr : SignedVoteR x) (h : Fits (encSignedVote x)) :
    decSignedVote (encSignedVote x) = .ok x ∧ IsItem (encSignedVote x) := by
  have hm := items_fit h
  simp only [List.forall_mem_cons, List.not_mem_nil, false_implies, implies_true, and_true] at hm
  obtain ⟨h1, h2, h3⟩ := hm
  have r2 := rt_vote x.vote hr h2
  refine ⟨?_, encList_isItem h⟩
  unfold decSignedVote encSignedVote
  rw [listOf_enc (n := 3) h (by
    simp only [List.forall_mem_cons, List.not_mem_nil, false_implies, implies_true, and_true]
    exact ⟨encStr_isItem h1, r2.2, encStr_isItem h3⟩) rfl]
  simp [decStr_enc h1, r2.1, decStr_enc h3]

theorem rt_proof (x : Proof) (hr : ProofR x) (h : Fits (encProof x)) :
    decProof (encProof x) = .ok x ∧ IsItem (encProof x) := by
  have hm := items_fit h
  simp only [List.forall_mem_cons, List.not_mem_nil, false_implies, implies_true, and_true] at hm
  obtain ⟨_, _, h3, h4⟩ := hm
  have r4 := rt_aggSig x.signature h4
  refine ⟨?_, encList_isItem h⟩
  unfold decProof encProof
  rw [listOf_enc (n := 4) h (by
    simp only [List.forall_mem_cons, List.not_mem_nil, false_implies, implies_true, and_true]
    exact ⟨encInt_isItem _, encInt_isItem _, encStr_isItem h3, r4.2⟩) rfl]
  simp [decInt8_enc hr.1, decInt8_enc hr.2, decStr_enc h3, r4.1]

theorem rt_duration (x : DurationConfig) (hr : DurationR x) (h : Fits (encDuration x)) :
    decDuration (encDuration x) = .ok x ∧ IsItem (encDuration x) := by
  refine ⟨?_, encList_isItem h⟩
  unfold decDuration encDuration
  rw [listOf_enc (n := 4) h (by
    simp only [List.forall_mem_cons, List.not_mem_nil, false_implies, implies_true, and_true]
    exact ⟨encInt_isItem _, encInt_isItem _, encInt_isItem _, encInt_isItem _⟩) rfl]
  simp [decInt8_enc hr.1, decInt8_enc hr.2.1, decInt8_enc hr.2.2.1, decInt8_enc hr.2.2.2]

theorem rt_node (x : Node) (hr : NodeR x) (h : Fits (encNode x)) :
    decNode (encNode x) = .ok x ∧ IsItem (encNode x) := by
  have hm := items_fit h
  simp only [List.forall_mem_cons, List.not_mem_nil, false_implies, implies_true, and_true] at hm
  refine ⟨?_, encList_isItem h⟩
  unfold decNode encNode
  rw [listOf_enc (n := 3) h (by
    simp only [List.forall_mem_cons, List.not_mem_nil, false_implies, implies_true, and_true]
    exact ⟨encStr_isItem hm.1, encInt_isItem _, encInt_isItem _⟩) rfl]
  simp [decStr_enc hm.1, decInt4_enc hr.1, decInt4_enc hr.2]

theorem rt_status_raw (x : Status) (hr : StatusR x) (h : Fits (encStatus x)) :
    decStatus (encStatus x) = .ok { x with
      interval := if x.interval.getD 0 = 0 then none else some (x.interval.getD 0),
      timerConfig := if x.timerConfig.getD .zero = .zero then none else some (x.timerConfig.getD .zero) } ∧
    IsItem (encStatus x) := by
  have hm := items_fit h
  simp only [List.forall_mem_cons, List.not_mem_nil, false_implies, implies_true, and_true] at hm
  obtain ⟨_, _, h3, h4⟩ := hm
  obtain ⟨g1, g2, g3, g4⟩ := hr
  have hi : x.interval.getD 0 < 2 ^ 64 := by
    cases hx : x.interval with
    | none => decide
    | some i => exact g2 i hx
  have hd : DurationR (x.timerConfig.getD .zero) := by
    cases hx : x.timerConfig with
    | none => simp [DurationR, DurationConfig.zero]
    | some i => exact g3 i hx
  have r3 := rt_duration _ hd h3
  have hnode : ∀ n ∈ x.authorityList, decNode (encNode n) = .ok n ∧ IsItem (encNode n) := by
    intro n hn
    exact rt_node n (g4 n hn)
      (Nat.lt_trans (mem_encList_length (List.mem_map.2 ⟨n, hn, rfl⟩)) h4)
  refine ⟨?_, encList_isItem h⟩
  unfold decStatus encStatus
  rw [listOf_enc (n := 4) h (by
    simp only [List.forall_mem_cons, List.not_mem_nil, false_implies, implies_true, and_true]
    exact ⟨encInt_isItem _, encInt_isItem _, r3.2, encList_isItem h4⟩) rfl]
  simp [decInt8_enc g1, decInt8_enc hi, r3.1,
    decVec_enc h4 (fun n hn => (hnode n hn).2) (fun n hn => (hnode n hn).1)]

theorem rt_aggChoke (x : AggregatedChoke) (hr : AggChokeR x) (h : Fits (encAggChoke x)) :
    decAggChoke (encAggChoke x) = .ok x ∧ IsItem (encAggChoke x) := by
  have hm := items_fit h
  simp only [List.forall_mem_cons, List.not_mem_nil, false_implies, implies_true, and_true] at hm
  obtain ⟨_, _, h3, h4⟩ := hm
  have hl : ∀ v ∈ x.voters, (encStr v).length < U64 := fun v hv =>
    Nat.lt_trans (mem_encList_length (List.mem_map.2 ⟨v, hv, rfl⟩)) h4
  refine ⟨?_, encList_isItem h⟩
  unfold decAggChoke encAggChoke
  rw [listOf_enc (n := 4) h (by
    simp only [List.forall_mem_cons, List.not_mem_nil, false_implies, implies_true, and_true]
    exact ⟨encInt_isItem _, encInt_isItem _, encStr_isItem h3, encList_isItem h4⟩) rfl]
  simp [decInt8_enc hr.1, decInt8_enc hr.2, decStr_enc h3,
    decVec_enc h4 (fun v hv => encStr_isItem (hl v hv)) (fun v hv => decStr_enc (hl v hv))]

theorem rt_updateFrom (x : UpdateFrom) (hr : UpdateFromR x) (h : Fits (encUpdateFrom x)) :
    decUpdateFrom (encUpdateFrom x) = .ok x ∧ IsItem (encUpdateFrom x) := by
  cases x with
  | prevoteQC q =>
    have hm := items_fit h
    simp only [List.forall_mem_cons, List.not_mem_nil, false_implies, implies_true, and_true] at hm
    have r := rt_aggVote q hr hm.2
    refine ⟨?_, encList_isItem h⟩
    unfold decUpdateFrom encUpdateFrom
    rw [listOf_enc (n := 2) h (by
      simp only [List.forall_mem_cons, List.not_mem_nil, false_implies, implies_true, and_true]
      exact ⟨encInt_isItem _, r.2⟩) rfl]
    simp [decInt1_enc (show 0 < 256 by decide), r.1]
  | precommitQC q =>
    have hm := items_fit h
    simp only [List.forall_mem_cons, List.not_mem_nil, false_implies, implies_true, and_true] at hm
    have r := rt_aggVote q hr hm.2
    refine ⟨?_, encList_isItem h⟩
    unfold decUpdateFrom encUpdateFrom
    rw [listOf_enc (n := 2) h (by
      simp only [List.forall_mem_cons, List.not_mem_nil, false_implies, implies_true, and_true]
      exact ⟨encInt_isItem _, r.2⟩) rfl]
    simp [decInt1_enc (show 1 < 256 by decide), r.1]
  | chokeQC q =>
    have hm := items_fit h
    simp only [List.forall_mem_cons, List.not_mem_nil, false_implies, implies_true, and_true] at hm
    have r := rt_aggChoke q hr hm.2
    refine ⟨?_, encList_isItem h⟩
    unfold decUpdateFrom encUpdateFrom
    rw [listOf_enc (n := 2) h (by
      simp only [List.forall_mem_cons, List.not_mem_nil, false_implies, implies_true, and_true]
      exact ⟨encInt_isItem _, r.2⟩) rfl]
    simp [decInt1_enc (show 2 < 256 by decide), r.1]

theorem rt_choke (x : Choke) (hr : ChokeR x) (h : Fits (encChoke x)) :
    decChoke (encChoke x) = .ok x ∧ IsItem (encChoke x) := by
  have hm := items_fit h
  simp only [List.forall_mem_cons, List.not_mem_nil, false_implies, implies_true, and_true] at hm
  have r := rt_updateFrom x.from hr.2.2 hm.2.2
  refine ⟨?_, encList_isItem h⟩
  unfold decChoke encChoke
  rw [listOf_enc (n := 3) h (by
    simp only [List.forall_mem_cons, List.not_mem_nil, false_implies, implies_true, and_true]
    exact ⟨encInt_isItem _, encInt_isItem _, r.2⟩) rfl]
  simp [decInt8_enc hr.1, decInt8_enc hr.2.1, r.1]

theorem rt_signedChoke (x : SignedChoke) (hr : SignedChokeR x) (h : Fits (encSignedChoke x)) :
    decSignedChoke (encSignedChoke x) = .ok x ∧ IsItem (encSignedChoke x) := by
  have hm := items_fit h
  simp only [List.forall_mem_cons, List.not_mem_nil, false_implies, implies_true, and_true] at hm
  obtain ⟨h1, h2, h3⟩ := hm
  have r := rt_choke x.choke hr h2
  refine ⟨?_, encList_isItem h⟩
  unfold decSignedChoke encSignedChoke
  rw [listOf_enc (n := 3) h (by
    simp only [List.forall_mem_cons, List.not_mem_nil, false_implies, implies_true, and_true]
    exact ⟨encStr_isItem h1, r.2, encStr_isItem h3⟩) rfl]
  simp [decStr_enc h1, r.1, decStr_enc h3]

section
variable {T : Type} [ContentCodec T]

theorem decContent_enc (hT : Faithful T) {x : T} {b : Bytes} (h : ContentCodec.encode x = some b) :
    decContent b = .ok x := by
  unfold decContent; rw [hT x b h]

theorem rt_proposal (hT : Faithful T) (x : Proposal T) (b : Bytes) (hr : ProposalR x)
    (he : encProposal x = some b) (h : Fits b) : decProposal b = .ok x ∧ IsItem b := by
  unfold encProposal at he
  simp only [Option.map_eq_some_iff] at he
  obtain ⟨c, hc, rfl⟩ := he
  have hm := items_fit h
  simp only [List.forall_mem_cons, List.not_mem_nil, false_implies, implies_true, and_true] at hm
  obtain ⟨_, _, h3, h4, h5, h6⟩ := hm
  refine ⟨?_, encList_isItem h⟩
  have hlock : decOption decPoLC (encOption (x.lock.map encPoLC)) = .ok x.lock := by
    cases hx : x.lock with
    | none => exact decOption_none _
    | some l =>
      rw [hx] at h4
      have r := rt_polc l (hr.2.2 l hx) (Nat.lt_trans (mem_encList_length (by simp)) h4)
      exact decOption_some h4 r.2 r.1
  unfold decProposal
  rw [listOf_enc (n := 6) h (by
    simp only [List.forall_mem_cons, List.not_mem_nil, false_implies, implies_true, and_true]
    exact ⟨encInt_isItem _, encInt_isItem _, encStr_isItem h3, encList_isItem h4, encStr_isItem h5,
      encStr_isItem h6⟩) rfl]
  simp [decInt8_enc hr.1, decInt8_enc hr.2.1, decStr_enc h3, decStr_enc h5, decStr_enc h6, hlock,
    decContent_enc hT hc]

theorem rt_signedProposal (hT : Faithful T) (x : SignedProposal T) (b : Bytes)
    (hr : SignedProposalR x) (he : encSignedProposal x = some b) (h : Fits b) :
    decSignedProposal b = .ok x ∧ IsItem b := by
  unfold encSignedProposal at he
  simp only [Option.map_eq_some_iff] at he
  obtain ⟨c, hc, rfl⟩ := he
  have hm := items_fit h
  simp only [List.forall_mem_cons, List.not_mem_nil, false_implies, implies_true, and_true] at hm
  have r := rt_proposal hT x.proposal c hr hc hm.2
  refine ⟨?_, encList_isItem h⟩
  unfold decSignedProposal
  rw [listOf_enc (n := 2) h (by
    simp only [List.forall_mem_cons, List.not_mem_nil, false_implies, implies_true, and_true]
    exact ⟨encStr_isItem hm.1, r.2⟩) rfl]
  simp [decStr_enc hm.1, r.1]

theorem rt_commit (hT : Faithful T) (x : Commit T) (b : Bytes) (hr : CommitR x)
    (he : encCommit x = some b) (h : Fits b) : decCommit b = .ok x ∧ IsItem b := by
  unfold encCommit at he
  simp only [Option.map_eq_some_iff] at he
  obtain ⟨c, hc, rfl⟩ := he
  have hm := items_fit h
  simp only [List.forall_mem_cons, List.not_mem_nil, false_implies, implies_true, and_true] at hm
  have r := rt_proof x.proof hr.2 hm.2.1
  refine ⟨?_, encList_isItem h⟩
  unfold decCommit
  rw [listOf_enc (n := 3) h (by
    simp only [List.forall_mem_cons, List.not_mem_nil, false_implies, implies_true, and_true]
    exact ⟨encInt_isItem _, r.2, encStr_isItem hm.2.2⟩) rfl]
  simp [decInt8_enc hr.1, r.1, decStr_enc hm.2.2, decContent_enc hT hc]

theorem rt_walLock (hT : Faithful T) (x : WalLock T) (b : Bytes) (hr : WalLockR x)
    (he : encWalLock x = some b) (h : Fits b) : decWalLock b = .ok x ∧ IsItem b := by
  unfold encWalLock at he
  simp only [Option.map_eq_some_iff] at he
  obtain ⟨c, hc, rfl⟩ := he
  have hm := items_fit h
  simp only [List.forall_mem_cons, List.not_mem_nil, false_implies, implies_true, and_true] at hm
  have r := rt_aggVote x.lockVotes hr.2 hm.2.1
  refine ⟨?_, encList_isItem h⟩
  unfold decWalLock
  rw [listOf_enc (n := 3) h (by
    simp only [List.forall_mem_cons, List.not_mem_nil, false_implies, implies_true, and_true]
    exact ⟨encInt_isItem _, r.2, encStr_isItem hm.2.2⟩) rfl]
  simp [decInt8_enc hr.1, r.1, decStr_enc hm.2.2, decContent_enc hT hc]

theorem rt_walInfo (hT : Faithful T) (x : WalInfo T) (b : Bytes) (hr : WalInfoR x)
    (he : encWalInfo x = some b) (h : Fits b) : decWalInfo b = .ok x ∧ IsItem b := by
  unfold encWalInfo at he
  simp only [Option.map_eq_some_iff] at he
  obtain ⟨c, hc, rfl⟩ := he
  have hm := items_fit h
  simp only [List.forall_mem_cons, List.not_mem_nil, false_implies, implies_true, and_true] at hm
  obtain ⟨_, _, _, h4, h5⟩ := hm
  have hlock : decOption decWalLock c = .ok x.lock ∧ IsItem c := by
    cases hx : x.lock with
    | none =>
      rw [hx] at hc
      simp only [encWalLock?, Option.some.injEq] at hc
      subst hc
      exact ⟨decOption_none _, encList_isItem h4⟩
    | some l =>
      rw [hx] at hc
      simp only [encWalLock?, Option.map_eq_some_iff] at hc
      obtain ⟨lb, hlb, rfl⟩ := hc
      have r := rt_walLock hT l lb (hr.2.2.1 l hx) hlb
        (Nat.lt_trans (mem_encList_length (by simp)) h4)
      exact ⟨decOption_some h4 r.2 r.1, encList_isItem h4⟩
  have r5 := rt_updateFrom x.from hr.2.2.2 h5
  refine ⟨?_, encList_isItem h⟩
  unfold decWalInfo
  rw [listOf_enc (n := 5) h (by
    simp only [List.forall_mem_cons, List.not_mem_nil, false_implies, implies_true, and_true]
    exact ⟨encInt_isItem _, encInt_isItem _, encInt_isItem _, hlock.2, r5.2⟩) rfl]
  simp [decInt8_enc hr.1, decInt8_enc hr.2.1, decInt1_enc x.step.toNat_lt, Step.ofU8_toNat, hlock.1,
    r5.1]

end

end Overlord
