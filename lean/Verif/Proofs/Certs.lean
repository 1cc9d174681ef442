import Verif.Proofs.Again
import Verif.Proofs.StateInv
import Verif.Proofs.NoPanic
import Verif.Props.Collection
import Verif.Spec.Certs

/-! C77: when certificates are made. -/

set_option linter.unusedSimpArgs false
set_option linter.unusedSectionVars false

namespace Overlord.Certs
open Spec M Rep

variable {T : Type}

/-- A vote that is not filtered, of a validator, without a certificate at its slot. -/
theorem run_kept (sv : SignedVote) (e : Env T) (s : State T) (h1 : ¬ s.filterMessage sv.vote.height sv.vote.round = true)
    (h2 : s.authority.contains sv.voter = true) {x : Err}
    (h3 : s.votes.getQcById sv.vote.height sv.vote.round sv.vote.voteType = .error x) :
    handleSignedVote sv e ⟨s, []⟩ =
        if sv.vote.height > s.height then (.ok (), ⟨{ s with votes := s.votes.insertVote sv.vote.blockHash sv sv.voter }, []⟩)
        else match countOut e s (s.votes.insertVote sv.vote.blockHash sv sv.voter) sv.vote.voteType with
          | .error x => (.error x, ⟨{ s with votes := s.votes.insertVote sv.vote.blockHash sv sv.voter }, []⟩)
          | .ok none => (.ok (), ⟨{ s with votes := s.votes.insertVote sv.vote.blockHash sv sv.voter }, []⟩)
          | .ok (some qc) => (.ok (), ⟨{ s with votes := (s.votes.insertVote sv.vote.blockHash sv sv.voter).setQc qc },
              .broadcast (.aggregatedVote qc) :: if s.tryGetFullTxs qc.blockHash = false then [] else
                [.trigger (stTrigger sv.vote.voteType.toTrigger qc.blockHash none qc.round qc.height)]⟩) := by
  unfold handleSignedVote verifyAddress; runs
  rw [if_neg h1, if_pos h2]
  simp only [h3]
  runs
  split
  · rfl
  unfold countVotes
  runs
  unfold countOut
  cases hc : countingVote e.sh s.authority (s.votes.insertVote sv.vote.blockHash sv sv.voter) s.height s.round sv.vote.voteType with
  | error x => rfl
  | ok o =>
    cases o with
    | none => rfl
    | some h =>
      unfold generateQc aggregateSignatures broadcast
      runs
      cases (s.votes.insertVote sv.vote.blockHash sv sv.voter).getVotes e.sh s.height s.round sv.vote.voteType h with
      | error x => rfl
      | ok vs =>
        dsimp only
        cases e.crypto.aggregate ((sortVotes vs).map SignedVote.signature) ((sortVotes vs).map SignedVote.voter) with
        | none => rfl
        | some sig =>
          simp only [some!]
          split <;> rfl

/-- A vote that is not kept. -/
theorem run_dropped (sv : SignedVote) (e : Env T) (s : State T)
    (h : s.filterMessage sv.vote.height sv.vote.round = true ∨ ¬ s.authority.contains sv.voter = true ∨
      ∃ q, s.votes.getQcById sv.vote.height sv.vote.round sv.vote.voteType = .ok q) :
    ∃ r, r ≠ .error .panic ∧ handleSignedVote sv e ⟨s, []⟩ = (r, ⟨s, []⟩) := by
  rcases h with h | h | ⟨q, h⟩
  · exact ⟨.ok (), by simp, by unfold handleSignedVote; runs; rw [if_pos h]⟩
  · by_cases h1 : s.filterMessage sv.vote.height sv.vote.round = true
    · exact ⟨.ok (), by simp, by unfold handleSignedVote; runs; rw [if_pos h1]⟩
    · exact ⟨.error .invalidAddress, by simp, by unfold handleSignedVote verifyAddress; runs; rw [if_neg h1, if_neg h]⟩
  · by_cases h1 : s.filterMessage sv.vote.height sv.vote.round = true
    · exact ⟨.ok (), by simp, by unfold handleSignedVote; runs; rw [if_pos h1]⟩
    by_cases h2 : s.authority.contains sv.voter = true
    swap
    · exact ⟨.error .invalidAddress, by simp, by unfold handleSignedVote verifyAddress; runs; rw [if_neg h1, if_neg h2]⟩
    refine ⟨.ok (), by simp, ?_⟩
    unfold handleSignedVote verifyAddress; runs
    rw [if_neg h1, if_pos h2]
    simp only [h]
    rfl

section
variable (l : List Node) (h r : Nat) (ty : VoteType)

/-- The node is at the slot and its pool is the one of this history. -/
structure Led (s : State T) (kept : List VoteOp) : Prop where
  height : s.height = h
  round : s.round = r
  auth : s.authority = Authority.update l
  pool : poolD s.votes h r ty = poolD (kept.foldl applyVoteOp []) h r ty
  members : VotersIn kept l

theorem counting_pool (sh : Shuffle) (au : Authority) {c c' : VoteCollector} (hp : poolD c h r ty = poolD c' h r ty) :
    countingVote sh au c h r ty = countingVote sh au c' h r ty := by
  unfold countingVote
  rw [getVoteMap_pool, getVoteMap_pool, hp]

theorem votes_pool (sh : Shuffle) (x : Hash) {c c' : VoteCollector} (hp : poolD c h r ty = poolD c' h r ty) :
    c.getVotes sh h r ty x = c'.getVotes sh h r ty x := by
  rw [getVotes_pool, getVotes_pool, hp]

variable {l h r ty}

/-- What counting gives is a certificate with a quorum. -/
theorem countOut_sound {e : Env T} {s : State T} {c : VoteCollector} {kept : List VoteOp} {qc : AggregatedVote}
    (hd : Distinct l) (hz : Sized l) (hh : s.height = h) (hr : s.round = r) (ha : s.authority = Authority.update l)
    (hp : poolD c h r ty = poolD (kept.foldl applyVoteOp []) h r ty) (hv : VotersIn kept l)
    (ho : countOut e s c ty = .ok (some qc)) :
    qc.height = h ∧ qc.round = r ∧ qc.voteType = ty ∧ Quorum l (votedFor kept h r ty qc.blockHash) := by
  unfold countOut at ho
  rw [hh, hr, ha, counting_pool h r ty e.sh _ hp] at ho
  cases hc : countingVote e.sh (Authority.update l) (kept.foldl applyVoteOp []) h r ty with
  | error x => rw [hc] at ho; cases ho
  | ok o =>
    cases o with
    | none => rw [hc] at ho; cases ho
    | some hash =>
      rw [hc] at ho
      dsimp only at ho
      split at ho
      · cases ho
      · split at ho
        · cases ho
        · simp only [Except.ok.injEq, Option.some.injEq] at ho
          subst ho
          exact ⟨rfl, rfl, rfl, C12_elected_has_two_thirds e.sh kept l hd hz hv h r ty hash hc⟩

theorem countOut_type {e : Env T} {s : State T} {c : VoteCollector} {t : VoteType} {qc : AggregatedVote}
    (ho : countOut e s c t = .ok (some qc)) : qc.voteType = t := by
  unfold countOut at ho
  split at ho
  · cases ho
  · cases ho
  · split at ho
    · cases ho
    · split at ho
      · cases ho
      · simp only [Except.ok.injEq, Option.some.injEq] at ho
        subst ho; rfl

theorem countOut_complete {e : Env T} {s : State T} {c : VoteCollector} {kept : List VoteOp} {x : Hash}
    (hd : Distinct l) (hz : Sized l) (ht : total l < 2 ^ 32) (hh : s.height = h) (hr : s.round = r)
    (ha : s.authority = Authority.update l)
    (hp : poolD c h r ty = poolD (kept.foldl applyVoteOp []) h r ty) (hv : VotersIn kept l)
    (hg : ∀ sigs voters, (e.crypto.aggregate sigs voters).isSome) (hq : Quorum l (votedFor kept h r ty x)) :
    ∃ qc, countOut e s c ty = .ok (some qc) ∧ qc.height = h ∧ qc.round = r ∧ qc.voteType = ty ∧ qc.blockHash = x := by
  have hc := (C14_recognised_iff_two_thirds_partial e.sh kept l hd hz hv ht h r ty x).2 hq
  have h13 := C13_first_vote_wins kept h r ty x e.sh
  unfold countOut
  rw [hh, hr, ha, counting_pool h r ty e.sh _ hp, hc]
  dsimp only
  rw [votes_pool h r ty e.sh x hp]
  cases hgv : (kept.foldl applyVoteOp []).getVotes e.sh h r ty x with
  | error y =>
    rw [hgv] at h13
    obtain ⟨n, _, hn⟩ := exists_of_weight_pos l (votedFor kept h r ty x) (by unfold Quorum at hq; omega)
    unfold votedFor at hn
    cases hf : firstVote kept h r ty n.address with
    | none => rw [hf] at hn; simp at hn
    | some v =>
      rw [hf] at hn
      exact absurd (by simpa using hn) (h13.2 _ _ hf)
  | ok vs =>
    dsimp only
    have hag := hg ((sortVotes vs).map SignedVote.signature) ((sortVotes vs).map SignedVote.voter)
    cases hagg : e.crypto.aggregate ((sortVotes vs).map SignedVote.signature) ((sortVotes vs).map SignedVote.voter) with
    | none => rw [hagg] at hag; simp at hag
    | some sig => exact ⟨_, rfl, rfl, rfl, rfl, rfl⟩

/-- Of the slot. -/
def atSlot (h r : Nat) (ty : VoteType) (sv : SignedVote) : Prop := sv.vote.height = h ∧ sv.vote.round = r ∧ sv.vote.voteType = ty

variable [ContentCodec T] [DecidableEq T]

theorem run_arm {sv : SignedVote} {e : Env T} {s s' : State T} {f : List (Effect T)} {x : Except Err Unit}
    (hpw : s.consensusPower = true) (hx : x ≠ .error .panic)
    (hr : handleSignedVote sv e ⟨s, []⟩ = (x, ⟨s', f⟩)) :
    runArm (.verified (.signedVote sv)) e ⟨s, []⟩ = (.ok true, ⟨s', f⟩) := by
  have h1 : M.logged (handleSignedVote sv) e ⟨s, []⟩ = (.ok (), ⟨s', f⟩) := by
    unfold M.logged
    rw [hr]
    cases x with
    | ok _ => rfl
    | error y => cases y <;> first | rfl | exact absurd rfl hx
  have h2 : handleMsg (.signedVote sv) e ⟨s, []⟩ = (.ok (), ⟨s', f⟩) := by
    unfold handleMsg
    runs
    rw [if_neg (by simp [hpw])]
    exact h1
  unfold runArm
  runs
  have h3 : M.logged (handleMsg (.signedVote sv)) e ⟨s, []⟩ = (.ok (), ⟨s', f⟩) := by
    unfold M.logged; rw [h2]
  rw [h3]

theorem certified_append (f g : List (Effect T)) : certified (f ++ g) h r ty = certified f h r ty ++ certified g h r ty := by
  simp [certified, List.filterMap_append]

theorem poolD_snoc (kept : List VoteOp) (c : VoteCollector) (sv : SignedVote)
    (hp : poolD c h r ty = poolD (kept.foldl applyVoteOp []) h r ty) :
    poolD (c.insertVote sv.vote.blockHash sv sv.voter) h r ty =
      poolD ((kept ++ [VoteOp.vote sv]).foldl applyVoteOp []) h r ty := by
  rw [List.foldl_append]
  simp only [List.foldl_cons, List.foldl_nil, applyVoteOp]
  rw [poolD_insertVote, poolD_insertVote, hp]

theorem firstVote_other (kept : List VoteOp) (sv : SignedVote) (hn : ¬ atSlot h r ty sv) (a : Address) :
    firstVote (kept ++ [.vote sv]) h r ty a = firstVote kept h r ty a := by
  rw [firstVote_append]
  have : firstVote [.vote sv] h r ty a = none := by
    unfold firstVote
    rw [if_neg (by intro hc; exact hn ⟨hc.1, hc.2.1, hc.2.2.1⟩)]
    rfl
  rw [this, Option.or_none]

theorem quorum_congr {p q : Address → Bool} (hpq : ∀ n ∈ l, p n.address = q n.address) : Quorum l p ↔ Quorum l q := by
  unfold Quorum; rw [weight_congr l p q hpq]

theorem quorum_mono {p q : Address → Bool} (hpq : ∀ n ∈ l, p n.address = true → q n.address = true) (hq : Quorum l p) :
    Quorum l q := by
  have := weight_mono l p q hpq
  unfold Quorum at *; omega

/-- No certificate at the slot. -/
def noCert (h r : Nat) (ty : VoteType) (s : State T) : Prop := qcId s.votes h r ty = none

theorem getQc_of_noCert {s : State T} (hn : noCert h r ty s) : s.votes.getQcById h r ty = .error .storageErr := by
  unfold noCert at hn
  cases hg : s.votes.getQcById h r ty with
  | ok q => rw [getQcById_iff, hn] at hg; cases hg
  | error x =>
    unfold VoteCollector.getQcById at hg
    change (match qcId s.votes h r ty with | some qc => Except.ok qc | none => .error Err.storageErr) = _ at hg
    rw [hn] at hg
    exact hg.symm

theorem not_filtered {s : State T} {sv : SignedVote} (hw : NoWrap s) (hh : s.height = h) (hr : s.round = r) (ha : atSlot h r ty sv) :
    ¬ s.filterMessage sv.vote.height sv.vote.round = true := by
  obtain ⟨h1, h2, _⟩ := ha
  obtain ⟨hw1, hw2⟩ := hw
  unfold State.filterMessage FUTURE_HEIGHT_GAP FUTURE_ROUND_GAP
  rw [h1, h2, ← hh, ← hr, if_neg (by omega), if_neg (by unfold U64; omega), if_neg (by unfold U64; omega)]
  simp

/-- Handing in one vote. -/
theorem step (hd : Distinct l) (hz : Sized l) {s : State T} {kept : List VoteOp} (sv : SignedVote) (e : Env T)
    (hpw : s.consensusPower = true) (hw : NoWrap s) (hL : Led l h r ty s kept) :
    ∃ s' f kept', runArm (.verified (.signedVote sv)) e ⟨s, []⟩ = (.ok true, ⟨s', f⟩) ∧
      s'.consensusPower = true ∧ NoWrap s' ∧ Led l h r ty s' kept' ∧
      (kept' = kept ∨ (kept' = kept ++ [.vote sv] ∧ sv.voter ∈ l.map Node.address)) ∧
      (∀ x ∈ certified f h r ty, Quorum l (votedFor kept' h r ty x)) ∧
      (noCert h r ty s → atSlot h r ty sv → sv.voter ∈ l.map Node.address → kept' = kept ++ [.vote sv]) ∧
      (noCert h r ty s → (∀ x, ¬ Quorum l (votedFor kept h r ty x)) → (∀ x, ¬ Quorum l (votedFor kept' h r ty x)) → noCert h r ty s') ∧
      (total l < 2 ^ 32 → (∀ sigs voters, (e.crypto.aggregate sigs voters).isSome) →
        (∀ x, ¬ Quorum l (votedFor kept h r ty x)) → ∀ x, Quorum l (votedFor kept' h r ty x) → x ∈ certified f h r ty) ∧
      (¬ noCert h r ty s → atSlot h r ty sv → kept' = kept) ∧ (¬ noCert h r ty s → ¬ noCert h r ty s') ∧
      (certified f h r ty = [] ∨ ((∃ x, certified f h r ty = [x]) ∧ ¬ noCert h r ty s' ∧ (atSlot h r ty sv → noCert h r ty s))) := by
  by_cases hdrop : s.filterMessage sv.vote.height sv.vote.round = true ∨ ¬ s.authority.contains sv.voter = true ∨
      ∃ q, s.votes.getQcById sv.vote.height sv.vote.round sv.vote.voteType = .ok q
  · obtain ⟨x, hx, hrun⟩ := run_dropped sv e s hdrop
    refine ⟨s, [], kept, run_arm hpw hx hrun, hpw, hw, hL, .inl rfl, by simp [certified], ?_, fun hn _ _ => hn, fun _ _ hnq x hq => absurd hq (hnq x),
      fun _ _ => rfl, fun hn => hn, .inl (by simp [certified])⟩
    intro hn ha hm
    exfalso
    rcases hdrop with hf | hc | ⟨q, hq⟩
    · exact not_filtered hw hL.height hL.round ha hf
    · rw [hL.auth, update_contains] at hc; exact hc hm
    · obtain ⟨h1, h2, h3⟩ := ha
      rw [h1, h2, h3, getQc_of_noCert hn] at hq
      cases hq
  · have h1 : ¬ s.filterMessage sv.vote.height sv.vote.round = true := fun hc => hdrop (.inl hc)
    have h2 : s.authority.contains sv.voter = true := Classical.not_not.1 fun hc => hdrop (.inr (.inl hc))
    have hm : sv.voter ∈ l.map Node.address := by rw [hL.auth, update_contains] at h2; exact h2
    have h3 : ∃ x, s.votes.getQcById sv.vote.height sv.vote.round sv.vote.voteType = .error x := by
      cases hq : s.votes.getQcById sv.vote.height sv.vote.round sv.vote.voteType with
      | ok q => exact absurd (.inr (.inr ⟨q, hq⟩)) hdrop
      | error x => exact ⟨x, rfl⟩
    obtain ⟨x0, h3⟩ := h3
    have hrun := run_kept sv e s h1 h2 h3
    have hpool := poolD_snoc (h := h) (r := r) (ty := ty) kept s.votes sv hL.pool
    have hmem : VotersIn (kept ++ [.vote sv]) l := by
      intro v hv
      simp only [List.mem_append, List.mem_singleton, VoteOp.vote.injEq] at hv
      rcases hv with hv | rfl
      · exact hL.members v hv
      · exact hm
    have hLed : ∀ vs, poolD vs h r ty = poolD ((kept ++ [VoteOp.vote sv]).foldl applyVoteOp []) h r ty →
        Led l h r ty { s with votes := vs } (kept ++ [.vote sv]) := fun vs hp => ⟨hL.height, hL.round, hL.auth, hp, hmem⟩
    have hnone : noCert h r ty s → noCert h r ty { s with votes := s.votes.insertVote sv.vote.blockHash sv sv.voter } := by
      intro hn; unfold noCert at *; rw [qcId_insertVote]; exact hn
    have hquiet : ¬ atSlot h r ty sv → ∀ x, Quorum l (votedFor (kept ++ [.vote sv]) h r ty x) → Quorum l (votedFor kept h r ty x) := by
      intro ha x hq
      refine (quorum_congr ?_).1 hq
      intro n _
      unfold votedFor
      rw [firstVote_other kept sv ha]
    have hstay : ¬ noCert h r ty s → ¬ atSlot h r ty sv := by
      rintro hn ⟨ha, hb, hc⟩
      apply hn
      rw [ha, hb, hc] at h3
      unfold noCert
      cases hq : qcId s.votes h r ty with
      | none => rfl
      | some q => rw [← getQcById_iff, h3] at hq; cases hq
    have hsome : ¬ noCert h r ty s → ¬ noCert h r ty { s with votes := s.votes.insertVote sv.vote.blockHash sv sv.voter } := by
      intro hn; unfold noCert at *; rw [qcId_insertVote]; exact hn
    by_cases hgt : sv.vote.height > s.height
    · rw [if_pos hgt] at hrun
      have hat : ¬ atSlot h r ty sv := by rintro ⟨ha, _, _⟩; rw [ha, hL.height] at hgt; omega
      exact ⟨_, _, _, run_arm hpw (by simp) hrun, hpw, hw, hLed _ hpool, .inr ⟨rfl, hm⟩, by simp [certified], fun _ _ _ => rfl,
        fun hn _ _ => hnone hn, fun _ _ hnq x hq => absurd (hquiet hat x hq) (hnq x), fun hn ha => absurd ha (hstay hn), hsome, .inl (by simp [certified])⟩
    rw [if_neg hgt] at hrun
    cases hc : countOut e s (s.votes.insertVote sv.vote.blockHash sv sv.voter) sv.vote.voteType with
    | error x =>
      rw [hc] at hrun
      have hx : x ≠ .panic := by
        rintro rfl
        unfold countOut at hc
        cases hcv : countingVote e.sh s.authority (s.votes.insertVote sv.vote.blockHash sv sv.voter) s.height s.round sv.vote.voteType with
        | error x => rw [hcv] at hc; cases hc; exact NoPanic.counting_ne hcv rfl
        | ok o =>
          rw [hcv] at hc
          cases o with
          | none => cases hc
          | some hash =>
            dsimp only at hc
            split at hc
            · rename_i y hy
              cases hc
              rw [getVotes_pool] at hy
              split at hy <;> cases hy
            · split at hc <;> cases hc
      refine ⟨_, _, _, run_arm hpw (by simpa using hx) hrun, hpw, hw, hLed _ hpool, .inr ⟨rfl, hm⟩, by simp [certified], fun _ _ _ => rfl,
        fun hn _ _ => hnone hn, fun ht hg hnq x hq => ?_, fun hn ha => absurd ha (hstay hn), hsome, .inl (by simp [certified])⟩
      exfalso
      by_cases hat : atSlot h r ty sv
      · obtain ⟨qc, hqc, _⟩ := countOut_complete hd hz ht hL.height hL.round hL.auth hpool hmem hg hq
        rw [hat.2.2, hqc] at hc; cases hc
      · exact hnq x (hquiet hat x hq)
    | ok o =>
      rw [hc] at hrun
      cases o with
      | none =>
        refine ⟨_, _, _, run_arm hpw (by simp) hrun, hpw, hw, hLed _ hpool, .inr ⟨rfl, hm⟩, by simp [certified], fun _ _ _ => rfl,
          fun hn _ _ => hnone hn, fun ht hg hnq x hq => ?_, fun hn ha => absurd ha (hstay hn), hsome, .inl (by simp [certified])⟩
        exfalso
        by_cases hat : atSlot h r ty sv
        · obtain ⟨qc, hqc, _⟩ := countOut_complete hd hz ht hL.height hL.round hL.auth hpool hmem hg hq
          rw [hat.2.2, hqc] at hc; cases hc
        · exact hnq x (hquiet hat x hq)
      | some qc =>
        dsimp only at hrun
        have hty := countOut_type hc
        have hcert : ∀ g : List (Effect T), (∀ y ∈ g, ∃ t, y = .trigger t) → certified (.broadcast (.aggregatedVote qc) :: g) h r ty =
            if qc.height = h ∧ qc.round = r ∧ qc.voteType = ty then [qc.blockHash] else [] := by
          intro g hg
          have : certified g h r ty = [] := by
            unfold certified
            rw [List.filterMap_eq_nil_iff]
            intro y hy
            obtain ⟨t, rfl⟩ := hg y hy
            rfl
          have h2 : certified (.broadcast (.aggregatedVote qc) :: g) h r ty =
            certified [.broadcast (.aggregatedVote (T := T) qc)] h r ty ++ certified g h r ty := by
            rw [← certified_append]; rfl
          rw [h2, this, List.append_nil]
          unfold certified
          by_cases hcc : qc.height = h ∧ qc.round = r ∧ qc.voteType = ty
          · simp [hcc]
          · simp [hcc]
        have hlog : ∀ y ∈ (if s.tryGetFullTxs qc.blockHash = false then [] else
              [Effect.trigger (T := T) (stTrigger sv.vote.voteType.toTrigger qc.blockHash none qc.round qc.height)]), ∃ t, y = .trigger t := by
          intro y hy
          split at hy
          · simp at hy
          · simp only [List.mem_singleton] at hy; exact ⟨_, hy⟩
        have hpool2 : poolD ((s.votes.insertVote sv.vote.blockHash sv sv.voter).setQc qc) h r ty =
            poolD ((kept ++ [VoteOp.vote sv]).foldl applyVoteOp []) h r ty := by rw [poolD_setQc]; exact hpool
        have hsnd : sv.vote.voteType = ty → qc.height = h ∧ qc.round = r ∧ qc.voteType = ty ∧
            Quorum l (votedFor (kept ++ [.vote sv]) h r ty qc.blockHash) := by
          intro ht
          rw [ht] at hc
          exact countOut_sound hd hz hL.height hL.round hL.auth hpool hmem hc
        refine ⟨_, _, _, run_arm hpw (by simp) hrun, hpw, hw, hLed _ hpool2, .inr ⟨rfl, hm⟩, ?_, fun _ _ _ => rfl, ?_, ?_, fun hn ha => absurd ha (hstay hn), ?_, ?_⟩
        · intro x hx
          rw [hcert _ hlog] at hx
          split at hx
          · rename_i hcc
            simp only [List.mem_singleton] at hx
            subst hx
            exact (hsnd (by rw [← hty]; exact hcc.2.2)).2.2.2
          · simp at hx
        · intro hn hnq hnq'
          unfold noCert
          rw [qcId_setQc, if_neg, qcId_insertVote]
          · exact hn
          · rintro ⟨_, _, ht⟩
            exact hnq' _ (hsnd (by rw [← hty]; exact ht)).2.2.2
        · intro ht hg hnq x hq
          by_cases hat : atSlot h r ty sv
          · obtain ⟨qc', hqc, ha, hb, hcc, hdd⟩ := countOut_complete hd hz ht hL.height hL.round hL.auth hpool hmem hg hq
            rw [hat.2.2, hqc] at hc
            simp only [Except.ok.injEq, Option.some.injEq] at hc
            subst hc
            rw [hcert _ hlog, if_pos ⟨ha, hb, hcc⟩, hdd]
            simp
          · exact absurd (hquiet hat x hq) (hnq x)
        · intro hn
          unfold noCert
          rw [qcId_setQc]
          split
          · simp
          · rw [qcId_insertVote]; exact hn
        · rw [hcert _ hlog]
          by_cases hcc : qc.height = h ∧ qc.round = r ∧ qc.voteType = ty
          · rw [if_pos hcc]
            refine .inr ⟨⟨_, rfl⟩, ?_, fun ha => Classical.not_not.1 fun hc => hstay hc ha⟩
            unfold noCert
            rw [qcId_setQc, if_pos hcc]
            simp
          · rw [if_neg hcc]; exact .inl rfl

/-- How the kept votes relate to all votes. -/
structure Rel (l : List Node) (h r : Nat) (ty : VoteType) (s : State T) (kept ops : List VoteOp) : Prop where
  sub : ∀ n ∈ l, ∀ sv, firstVote kept h r ty n.address = some sv → firstVote ops h r ty n.address = some sv
  eq : noCert h r ty s → ∀ n ∈ l, firstVote kept h r ty n.address = firstVote ops h r ty n.address

theorem first_one_other {sv : SignedVote} {a : Address} (ha : sv.voter ≠ a ∨ ¬ atSlot h r ty sv) :
    firstVote [.vote sv] h r ty a = none := by
  unfold firstVote
  rw [if_neg]
  · rfl
  · rintro ⟨h1, h2, h3, h4⟩
    rcases ha with ha | ha
    · exact ha h4
    · exact ha ⟨h1, h2, h3⟩

theorem rel_step {s s' : State T} {kept kept' ops : List VoteOp} {sv : SignedVote} (hR : Rel l h r ty s kept ops)
    (hk : kept' = kept ∨ (kept' = kept ++ [.vote sv] ∧ sv.voter ∈ l.map Node.address))
    (h1 : noCert h r ty s → atSlot h r ty sv → sv.voter ∈ l.map Node.address → kept' = kept ++ [.vote sv])
    (h2 : ¬ noCert h r ty s → atSlot h r ty sv → kept' = kept) (h3 : ¬ noCert h r ty s → ¬ noCert h r ty s') :
    Rel l h r ty s' kept' (ops ++ [.vote sv]) := by
  have heq : noCert h r ty s → ∀ n ∈ l, firstVote kept' h r ty n.address = firstVote (ops ++ [.vote sv]) h r ty n.address := by
    intro hn n hl
    have he := hR.eq hn n hl
    rw [firstVote_append]
    rcases hk with rfl | ⟨rfl, _⟩
    · by_cases ha : atSlot h r ty sv
      · by_cases hm : sv.voter ∈ l.map Node.address
        · have := h1 hn ha hm
          simp at this
        · rw [first_one_other (.inl fun hc => hm (by rw [hc]; exact List.mem_map_of_mem hl)), Option.or_none, he]
      · rw [first_one_other (.inr ha), Option.or_none, he]
    · rw [firstVote_append, he]
  refine ⟨?_, fun hn => heq (Classical.not_not.1 fun hc => h3 hc hn)⟩
  intro n hl v hv
  by_cases hn : noCert h r ty s
  · rw [← heq hn n hl]; exact hv
  · have hv' : firstVote kept h r ty n.address = some v := by
      rcases hk with rfl | ⟨rfl, _⟩
      · exact hv
      · rw [firstVote_append] at hv
        have ha : ¬ atSlot h r ty sv := fun ha => by have := h2 hn ha; simp at this
        rw [first_one_other (.inr ha), Option.or_none] at hv
        exact hv
    rw [firstVote_append, hR.sub n hl v hv']
    rfl

theorem quorum_sub {kept ops : List VoteOp} {x : Hash}
    (hs : ∀ n ∈ l, ∀ sv, firstVote kept h r ty n.address = some sv → firstVote ops h r ty n.address = some sv)
    (hq : Quorum l (votedFor kept h r ty x)) : Quorum l (votedFor ops h r ty x) := by
  refine quorum_mono (fun n hl hn => ?_) hq
  unfold votedFor at *
  cases hf : firstVote kept h r ty n.address with
  | none => rw [hf] at hn; simp at hn
  | some v => rw [hf] at hn; rw [hs n hl v hf]; exact hn

theorem sub_append (ops ops' : List VoteOp) (a : Address) (sv : SignedVote) (hf : firstVote ops h r ty a = some sv) :
    firstVote (ops ++ ops') h r ty a = some sv := by
  rw [firstVote_append, hf]; rfl

theorem sound (hd : Distinct l) (hz : Sized l) (vs : List (Env T × SignedVote)) :
    ∀ (s : State T) (kept ops : List VoteOp), s.consensusPower = true → NoWrap s → Led l h r ty s kept → Rel l h r ty s kept ops →
      ∀ x ∈ certified (s.trace (handVotes vs)) h r ty, Quorum l (votedFor (ops ++ asHistory vs) h r ty x) := by
  induction vs with
  | nil => intro s kept ops _ _ _ _ x hx; simp [handVotes, State.trace, certified] at hx
  | cons p vs ih =>
    intro s kept ops hpw hw hL hR x hx
    obtain ⟨e, sv⟩ := p
    obtain ⟨s', f, kept', hrun, hpw', hw', hL', hk, hsnd, h1, _, _, h2, h3, _⟩ := step hd hz sv e hpw hw hL
    have hR' := rel_step (s' := s') hR hk h1 h2 h3
    have ht : s.trace (handVotes ((e, sv) :: vs)) = f ++ s'.trace (handVotes vs) := by
      simp only [handVotes, List.map_cons, State.trace, hrun]
    rw [ht, certified_append, List.mem_append] at hx
    have ha : ops ++ asHistory ((e, sv) :: vs) = (ops ++ [.vote sv]) ++ asHistory vs := by simp [asHistory]
    rw [ha]
    rcases hx with hx | hx
    · exact quorum_sub (fun n hl v hv => sub_append _ _ _ _ (hR'.sub n hl v hv)) (hsnd x hx)
    · exact ih s' kept' _ hpw' hw' hL' hR' x hx

theorem complete (hd : Distinct l) (hz : Sized l) (ht : total l < 2 ^ 32) (vs : List (Env T × SignedVote)) :
    ∀ (s : State T) (kept ops : List VoteOp), s.consensusPower = true → NoWrap s → Led l h r ty s kept → Rel l h r ty s kept ops →
      noCert h r ty s → (∀ x, ¬ Quorum l (votedFor ops h r ty x)) → Aggregates vs →
      ∀ x, Quorum l (votedFor (ops ++ asHistory vs) h r ty x) → x ∈ certified (s.trace (handVotes vs)) h r ty := by
  induction vs with
  | nil => intro s kept ops _ _ _ _ _ hnq _ x hx; exact absurd (by simpa [asHistory] using hx) (hnq x)
  | cons p vs ih =>
    intro s kept ops hpw hw hL hR hn hnq hg x hx
    obtain ⟨e, sv⟩ := p
    obtain ⟨s', f, kept', hrun, hpw', hw', hL', hk, hsnd, h1, h4, h5, h2, h3, _⟩ := step hd hz sv e hpw hw hL
    have hR' := rel_step (s' := s') hR hk h1 h2 h3
    have htr : s.trace (handVotes ((e, sv) :: vs)) = f ++ s'.trace (handVotes vs) := by
      simp only [handVotes, List.map_cons, State.trace, hrun]
    rw [htr, certified_append, List.mem_append]
    have ha : ops ++ asHistory ((e, sv) :: vs) = (ops ++ [.vote sv]) ++ asHistory vs := by simp [asHistory]
    rw [ha] at hx
    have hnk : ∀ x, ¬ Quorum l (votedFor kept h r ty x) := fun x hq => hnq x (quorum_sub hR.sub hq)
    by_cases hq : ∃ y, Quorum l (votedFor kept' h r ty y)
    · obtain ⟨y, hy⟩ := hq
      have hy' : Quorum l (votedFor ((ops ++ [.vote sv]) ++ asHistory vs) h r ty y) :=
        quorum_sub (fun n hl v hv => sub_append _ _ _ _ (hR'.sub n hl v hv)) hy
      obtain rfl := C12_at_most_one_elected _ l h r ty x y hx hy'
      exact .inl (h5 ht (hg _ List.mem_cons_self) hnk x hy)
    · have hnq' : ∀ y, ¬ Quorum l (votedFor kept' h r ty y) := fun y hy => hq ⟨y, hy⟩
      have hn' := h4 hn hnk hnq'
      refine .inr (ih s' kept' _ hpw' hw' hL' hR' hn' (fun y hy => hnq' y ?_) (fun p hp => hg p (List.mem_cons_of_mem _ hp)) x hx)
      refine (quorum_congr fun n hl => ?_).1 hy
      unfold votedFor
      rw [hR'.eq hn' n hl]

theorem once (hd : Distinct l) (hz : Sized l) (vs : List (Env T × SignedVote)) (hs : ∀ p ∈ vs, atSlot h r ty p.2) :
    ∀ (s : State T) (kept : List VoteOp), s.consensusPower = true → NoWrap s → Led l h r ty s kept →
      (certified (s.trace (handVotes vs)) h r ty).length ≤ 1 ∧
      (¬ noCert h r ty s → certified (s.trace (handVotes vs)) h r ty = []) := by
  induction vs with
  | nil => intro s kept _ _ _; simp [handVotes, State.trace, certified]
  | cons p vs ih =>
    intro s kept hpw hw hL
    obtain ⟨e, sv⟩ := p
    obtain ⟨s', f, kept', hrun, hpw', hw', hL', _, _, _, _, _, _, h3, h6⟩ := step hd hz sv e hpw hw hL
    have htr : s.trace (handVotes ((e, sv) :: vs)) = f ++ s'.trace (handVotes vs) := by
      simp only [handVotes, List.map_cons, State.trace, hrun]
    have ha := hs _ List.mem_cons_self
    obtain ⟨i1, i2⟩ := ih (fun p hp => hs p (List.mem_cons_of_mem _ hp)) s' kept' hpw' hw' hL'
    rw [htr, certified_append]
    rcases h6 with h6 | ⟨⟨x, hx⟩, h7, h8⟩
    · rw [h6, List.nil_append]
      exact ⟨i1, fun hn => i2 (h3 hn)⟩
    · rw [hx, i2 h7]
      exact ⟨by simp, fun hn => absurd (h8 ha) hn⟩

/-- Nothing collected. -/
theorem led_start {s : State T} (ha : s.authority = Authority.update l) (hu : Untouched s ty) :
    Led l s.height s.round ty s [] ∧ Rel l s.height s.round ty s [] [] ∧ noCert s.height s.round ty s := by
  refine ⟨⟨rfl, rfl, ha, ?_, by intro v hv; simp at hv⟩, ⟨fun _ _ _ hf => hf, fun _ _ _ => rfl⟩, ?_⟩
  · have h1 : poolD ([] : VoteCollector) s.height s.round ty = Votes.new := by simp [poolD, VoteCollector.pool, AMap.get?]
    rw [List.foldl_nil, h1]
    have h2 := hu.noVotes
    rw [getVoteMap_pool] at h2
    have h3 := hu.noVoter
    unfold keptVote at h3
    cases hp : s.votes.pool s.height s.round ty with
    | none => simp [poolD, hp]
    | some v =>
      simp only [poolD, hp, Option.getD_some] at h2 ⊢
      simp only [hp, Option.bind_some] at h3
      obtain ⟨bh, ba⟩ := v
      have e1 : bh = [] := by
        cases bh with
        | nil => rfl
        | cons _ _ => simp at h2
      have e2 : ba = [] := by
        cases ba with
        | nil => rfl
        | cons q _ => have := h3 q.1; simp [AMap.get?] at this
      rw [e1, e2]; rfl
  · unfold noCert
    cases hq : qcId s.votes s.height s.round ty with
    | none => rfl
    | some q => rw [← getQcById_iff, hu.noCert] at hq; cases hq

end
end Overlord.Certs
