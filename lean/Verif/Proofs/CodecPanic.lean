import Verif.Proofs.Codec

/-! Which decoders can panic. -/

set_option linter.unusedSimpArgs false

namespace Overlord

/-- The decoder does not panic. -/
def NP {α} (x : Except DErr α) : Prop := x ≠ .error .panic

theorem np_ok {α} (x : α) : NP (Except.ok x : Except DErr α) := by intro h; cases h
theorem np_bad {α} : NP (Except.error .bad : Except DErr α) := by intro h; cases h
theorem np_pure {α} (x : α) : NP (pure x : Except DErr α) := np_ok x

theorem np_bind {α β} {x : Except DErr α} {f : α → Except DErr β} (hx : NP x)
    (hf : ∀ a, x = .ok a → NP (f a)) : NP (x >>= f) := by
  cases x with
  | error e => intro h; exact hx (by cases e with
      | bad => cases h
      | panic => rfl)
  | ok a => exact hf a rfl

theorem np_listOf (n : Nat) (bs : Bytes) : NP (listOf n bs) := by
  unfold listOf; split
  · exact np_ok _
  · exact np_bad

theorem np_decStr (bs : Bytes) : NP (decStr bs) := by
  unfold decStr
  split
  · exact np_bad
  · dsimp only
    repeat' split
    all_goals first | exact np_ok _ | exact np_bad

theorem np_decInt (n : Nat) (bs : Bytes) : NP (decInt n bs) := by
  unfold decInt
  have := np_decStr bs
  split
  · rename_i e he; rw [he] at this
    cases e with
    | bad => exact np_bad
    | panic => exact absurd rfl this
  · repeat' split
    all_goals first | exact np_ok _ | exact np_bad

theorem np_decOption {α} {dec : Bytes → Except DErr α} (h : ∀ b, NP (dec b)) (bs : Bytes) :
    NP (decOption dec bs) := by
  unfold decOption
  split
  · split
    · exact np_ok _
    · rename_i x _
      have := h x
      intro hc
      cases hd : dec x with
      | ok y => rw [hd] at hc; cases hc
      | error e => rw [hd] at hc; rw [hd] at this; cases e with
        | bad => cases hc
        | panic => exact this rfl
    · exact np_bad
  · exact np_bad

theorem np_mapM {α β} {dec : α → Except DErr β} (h : ∀ b, NP (dec b)) (l : List α) :
    NP (l.mapM dec) := by
  induction l with
  | nil => exact np_ok _
  | cons a l ih =>
    rw [List.mapM_cons]
    exact np_bind (h a) fun _ _ => np_bind ih fun _ _ => np_ok _

theorem np_decVec {α} {dec : Bytes → Except DErr α} (h : ∀ b, NP (dec b)) (bs : Bytes) :
    NP (decVec dec bs) := by
  unfold decVec; split
  · exact np_mapM h _
  · exact np_ok _

theorem np_voteType (n : Nat) : NP (VoteType.ofU8 n) := by
  unfold VoteType.ofU8; split
  · exact np_ok _
  · exact np_ok _
  · exact np_bad

theorem np_content {T} [ContentCodec T] (b : Bytes) : NP (decContent b : Except DErr T) := by
  unfold decContent; split
  · exact np_ok _
  · exact np_bad

theorem np_aggSig (bs : Bytes) : NP (decAggSig bs) := by
  unfold decAggSig
  refine np_bind (np_listOf _ _) fun l _ => ?_
  split
  · exact np_bind (np_decStr _) fun _ _ => np_bind (np_decStr _) fun _ _ => np_pure _
  · exact np_bad

theorem np_aggVote (bs : Bytes) : NP (decAggVote bs) := by
  unfold decAggVote
  refine np_bind (np_listOf _ _) fun l _ => ?_
  split
  · exact np_bind (np_aggSig _) fun _ _ => np_bind (np_decInt _ _) fun _ _ =>
      np_bind (np_voteType _) fun _ _ => np_bind (np_decInt _ _) fun _ _ =>
      np_bind (np_decInt _ _) fun _ _ => np_bind (np_decStr _) fun _ _ =>
      np_bind (np_decStr _) fun _ _ => np_pure _
  · exact np_bad

theorem np_polc (bs : Bytes) : NP (decPoLC bs) := by
  unfold decPoLC
  refine np_bind (np_listOf _ _) fun l _ => ?_
  split
  · exact np_bind (np_decInt _ _) fun _ _ => np_bind (np_aggVote _) fun _ _ => np_pure _
  · exact np_bad

theorem np_vote (bs : Bytes) : NP (decVote bs) := by
  unfold decVote
  refine np_bind (np_listOf _ _) fun l _ => ?_
  split
  · exact np_bind (np_decInt _ _) fun _ _ => np_bind (np_decInt _ _) fun _ _ =>
      np_bind (np_decInt _ _) fun _ _ => np_bind (np_voteType _) fun _ _ =>
      np_bind (np_decStr _) fun _ _ => np_pure _
  · exact np_bad

theorem np_signedVote (bs : Bytes) : NP (decSignedVote bs) := by
  unfold decSignedVote
  refine np_bind (np_listOf _ _) fun l _ => ?_
  split
  · exact np_bind (np_decStr _) fun _ _ => np_bind (np_vote _) fun _ _ =>
      np_bind (np_decStr _) fun _ _ => np_pure _
  · exact np_bad

theorem np_proof (bs : Bytes) : NP (decProof bs) := by
  unfold decProof
  refine np_bind (np_listOf _ _) fun l _ => ?_
  split
  · exact np_bind (np_decInt _ _) fun _ _ => np_bind (np_decInt _ _) fun _ _ =>
      np_bind (np_decStr _) fun _ _ => np_bind (np_aggSig _) fun _ _ => np_pure _
  · exact np_bad

theorem np_duration (bs : Bytes) : NP (decDuration bs) := by
  unfold decDuration
  refine np_bind (np_listOf _ _) fun l _ => ?_
  split
  · exact np_bind (np_decInt _ _) fun _ _ => np_bind (np_decInt _ _) fun _ _ =>
      np_bind (np_decInt _ _) fun _ _ => np_bind (np_decInt _ _) fun _ _ => np_pure _
  · exact np_bad

theorem np_node (bs : Bytes) : NP (decNode bs) := by
  unfold decNode
  refine np_bind (np_listOf _ _) fun l _ => ?_
  split
  · exact np_bind (np_decStr _) fun _ _ => np_bind (np_decInt _ _) fun _ _ =>
      np_bind (np_decInt _ _) fun _ _ => np_pure _
  · exact np_bad

theorem np_status (bs : Bytes) : NP (decStatus bs) := by
  unfold decStatus
  refine np_bind (np_listOf _ _) fun l _ => ?_
  split
  · exact np_bind (np_decInt _ _) fun _ _ => np_bind (np_decInt _ _) fun _ _ =>
      np_bind (np_duration _) fun _ _ => np_bind (np_decVec np_node _) fun _ _ => np_pure _
  · exact np_bad

theorem np_aggChoke (bs : Bytes) : NP (decAggChoke bs) := by
  unfold decAggChoke
  refine np_bind (np_listOf _ _) fun l _ => ?_
  split
  · exact np_bind (np_decInt _ _) fun _ _ => np_bind (np_decInt _ _) fun _ _ =>
      np_bind (np_decStr _) fun _ _ => np_bind (np_decVec np_decStr _) fun _ _ => np_pure _
  · exact np_bad

section
variable {T : Type} [ContentCodec T]

theorem np_proposal (bs : Bytes) : NP (decProposal bs : Except DErr (Proposal T)) := by
  unfold decProposal
  refine np_bind (np_listOf _ _) fun l _ => ?_
  split
  · exact np_bind (np_decInt _ _) fun _ _ => np_bind (np_decInt _ _) fun _ _ =>
      np_bind (np_decStr _) fun _ _ => np_bind (np_decOption np_polc _) fun _ _ =>
      np_bind (np_decStr _) fun _ _ => np_bind (np_decStr _) fun _ _ =>
      np_bind (np_content _) fun _ _ => np_pure _
  · exact np_bad

theorem np_signedProposal (bs : Bytes) : NP (decSignedProposal bs : Except DErr (SignedProposal T)) := by
  unfold decSignedProposal
  refine np_bind (np_listOf _ _) fun l _ => ?_
  split
  · exact np_bind (np_decStr _) fun _ _ => np_bind (np_proposal _) fun _ _ => np_pure _
  · exact np_bad

theorem np_commit (bs : Bytes) : NP (decCommit bs : Except DErr (Commit T)) := by
  unfold decCommit
  refine np_bind (np_listOf _ _) fun l _ => ?_
  split
  · exact np_bind (np_decInt _ _) fun _ _ => np_bind (np_proof _) fun _ _ =>
      np_bind (np_decStr _) fun _ _ => np_bind (np_content _) fun _ _ => np_pure _
  · exact np_bad

theorem np_walLock (bs : Bytes) : NP (decWalLock bs : Except DErr (WalLock T)) := by
  unfold decWalLock
  refine np_bind (np_listOf _ _) fun l _ => ?_
  split
  · exact np_bind (np_decInt _ _) fun _ _ => np_bind (np_aggVote _) fun _ _ =>
      np_bind (np_decStr _) fun _ _ => np_bind (np_content _) fun _ _ => np_pure _
  · exact np_bad
end

/-- `unreachable!()` in the decoder of `UpdateFrom` is reached exactly when the tag is above 2. -/
theorem updateFrom_panic_iff (bs : Bytes) :
    decUpdateFrom bs = .error .panic ↔
      ∃ a b t, listOf 2 bs = .ok [a, b] ∧ decInt 1 a = .ok t ∧ 2 < t := by
  unfold decUpdateFrom
  constructor
  · intro h
    cases hl : listOf 2 bs with
    | error e => rw [hl] at h; cases e <;> first | exact absurd hl (np_listOf _ _) | cases h
    | ok l =>
      rw [hl] at h
      simp only [except_bind_ok] at h
      split at h
      · rename_i a b
        cases ht : decInt 1 a with
        | error e => rw [ht] at h; cases e <;> first | exact absurd ht (np_decInt _ _) | cases h
        | ok t =>
          rw [ht] at h
          refine ⟨a, b, t, rfl, ht, ?_⟩
          simp only [except_bind_ok] at h
          split at h
          · exact absurd h (np_bind (np_aggVote b) fun _ _ => np_pure _)
          · exact absurd h (np_bind (np_aggVote b) fun _ _ => np_pure _)
          · exact absurd h (np_bind (np_aggChoke b) fun _ _ => np_pure _)
          · rename_i h0 h1 h2
            rcases t with _ | _ | _ | t
            · exact absurd rfl h0
            · exact absurd rfl h1
            · exact absurd rfl h2
            · omega
      · cases h
  · rintro ⟨a, b, t, hl, ht, h2⟩
    rw [hl]
    simp only [except_bind_ok, ht]
    rcases t with _ | _ | _ | t
    · omega
    · omega
    · omega
    · rfl

end Overlord
