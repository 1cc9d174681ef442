import Verif.Props.State3
import Verif.Spec.Early

/-!
What the caches hold for a height the node has not reached stays there until the node gets there.
-/

set_option linter.unusedSimpArgs false
set_option linter.unusedVariables false
set_option linter.unusedSectionVars false

namespace Overlord
namespace Early
open M Spec

variable {T : Type} [ContentCodec T] [DecidableEq T]

/-- The message is in the cache. -/
def InCache (s : State T) : OverlordMsg T → Prop
  | .signedVote sv => (poolD s.votes sv.vote.height sv.vote.round sv.vote.voteType).byAddress.get? sv.voter = some sv
  | .signedProposal sp => s.proposals.get sp.proposal.height sp.proposal.round = .ok sp
  | .aggregatedVote qc => qcId s.votes qc.height qc.round qc.voteType = some qc
  | _ => False

/-- The height of a message that can be cached. -/
def hgt : OverlordMsg T → Nat
  | .signedVote sv => sv.vote.height
  | .signedProposal sp => sp.proposal.height
  | .aggregatedVote qc => qc.height
  | _ => 0

/-- The input does not bring another certificate for the slot of the message. -/
def Spares (i : Input T) (m : OverlordMsg T) : Prop :=
  ∀ qc, m = .aggregatedVote qc → ∀ qc', BringsQc i qc' → SameSlot qc' qc → qc' = qc

theorem inCache_congr {s s' : State T} {m : OverlordMsg T}
    (hv : AMap.get? s'.votes (hgt m) = AMap.get? s.votes (hgt m))
    (hp : AMap.get? s'.proposals (hgt m) = AMap.get? s.proposals (hgt m)) (h : InCache s m) : InCache s' m := by
  cases m <;> simp only [InCache, hgt, poolD, VoteCollector.pool, qcId, ProposalCollector.get] at * <;>
    (try rw [hv]) <;> (try rw [hp]) <;> exact h

theorem votes_first {vs : Votes} {hash : Hash} {a b : Address} {v w : SignedVote}
    (h : vs.byAddress.get? a = some w) : (vs.insert hash b v).byAddress.get? a = some w := by
  unfold Votes.insert
  split
  · exact h
  · rename_i hc
    show (vs.byAddress.insert b v).get? a = some w
    rw [AMap.get?_insert]
    split
    · rename_i hab; subst hab
      exact absurd (by unfold AMap.contains; rw [h]; rfl) hc
    · exact h

theorem get_insert {c ps : ProposalCollector T} {h r h' r' : Nat} {sp sp' : SignedProposal T}
    (hi : c.insert h' r' sp' = .ok ps) (hg : c.get h r = .ok sp) : ps.get h r = .ok sp := by
  unfold ProposalCollector.get at hg
  have hg' : (AMap.get? c h).bind (fun rc => AMap.get? rc r) = some sp := by
    split at hg
    · rename_i sp1 h1; simp only [Except.ok.injEq] at hg; subst hg; exact h1
    · cases hg
  have goal : (AMap.get? ps h).bind (fun rc => AMap.get? rc r) = some sp := by
    unfold ProposalCollector.insert at hi
    dsimp only at hi
    split at hi
    · split at hi
      · simp only [Except.ok.injEq] at hi; subst hi; exact hg'
      · cases hi
    · rename_i hnone
      simp only [Except.ok.injEq] at hi
      subst hi
      rw [AMap.get?_insert]
      split
      · rename_i hh; subst hh
        rw [Option.bind_some, AMap.get?_insert]
        obtain ⟨rc, h1, h2⟩ := Option.bind_eq_some_iff.1 hg'
        rw [h1] at hnone ⊢
        split
        · rename_i hr; subst hr
          simp only [Option.getD_some] at hnone
          rw [hnone] at h2; cases h2
        · exact h2
      · exact hg'
  unfold ProposalCollector.get
  rw [goal]

/-- Without a restart the height never goes down. -/
theorem height_up {e : Env T} {i : Input T} (hi : i ≠ .start) {s : State T} {eff : List (Effect T)} {s' : State T}
    (hm : Micro e i s eff s') : s.height ≤ s'.height := by
  cases hm with
  | move st _ hh => exact Nat.le_of_lt hh
  | moveLost st _ _ hh => exact Nat.le_of_lt hh
  | adopt st _ _ hh => exact Nat.le_of_lt hh
  | restorePos w b h => exact absurd h hi
  | _ => exact Nat.le_refl _

/-- Votes stored in the collector keep a cached message. -/
theorem keep_vote {s : State T} {m : OverlordMsg T} (h : InCache s m) (hash : Hash) (sv : SignedVote) (a : Address) :
    InCache { s with votes := s.votes.insertVote hash sv a } m := by
  cases m with
  | signedVote sv' =>
    show (poolD (s.votes.insertVote hash sv a) _ _ _).byAddress.get? _ = _
    rw [poolD_insertVote]
    split
    · exact votes_first h
    · exact h
  | signedProposal sp => exact h
  | aggregatedVote qc => show qcId (s.votes.insertVote hash sv a) _ _ _ = _; rw [qcId_insertVote]; exact h
  | _ => exact h

theorem keep_qc {s : State T} {m : OverlordMsg T} (h : InCache s m) (q : AggregatedVote)
    (hq : ∀ qc, m = .aggregatedVote qc → SameSlot q qc → q = qc) :
    InCache { s with votes := s.votes.setQc q } m := by
  cases m with
  | signedVote sv' => show (poolD (s.votes.setQc q) _ _ _).byAddress.get? _ = _; rw [poolD_setQc]; exact h
  | signedProposal sp => exact h
  | aggregatedVote qc =>
    show qcId (s.votes.setQc q) _ _ _ = _
    rw [qcId_setQc]
    split
    · rename_i hs; rw [hq qc rfl hs]
    · exact h
  | _ => exact h

theorem keep_proposal {s : State T} {m : OverlordMsg T} (h : InCache s m) {h' r' : Nat} {sp : SignedProposal T}
    {ps : ProposalCollector T} (hs : s.proposals.insert h' r' sp = .ok ps) :
    InCache { s with proposals := ps } m := by
  cases m with
  | signedProposal sp' => exact get_insert hs h
  | _ => exact h

/-- A micro-step that stays below the message's height keeps it. -/
theorem kept_micro {e : Env T} {i : Input T} (hi : i ≠ .start) {m : OverlordMsg T} (hsp : Spares i m)
    {s : State T} {eff : List (Effect T)} {s' : State T} (hm : Micro e i s eff s')
    (h : InCache s m) (hlt : s'.height < hgt m) : InCache s' m := by
  have hlow : s.height < hgt m := Nat.lt_of_le_of_lt (height_up hi hm) hlt
  cases hm with
  | recvQc qc hq hw =>
    refine keep_qc h qc fun q0 h0 hs => hsp q0 h0 qc ?_ hs
    rcases hq with hq | ⟨sc, h1, h2, h3, h4⟩
    · exact .inl hq
    · exact .inr ⟨sc, h1, h4⟩
  | genQc ty hash vs sig =>
    refine keep_qc h _ fun q0 h0 hs => ?_
    exfalso
    subst h0
    have : s.height = q0.height := hs.1
    simp only [hgt] at hlow
    omega
  | recvVote sv => exact keep_vote h ..
  | castVote ty hash lr lock sv =>
    split
    · exact keep_vote h ..
    · exact h
  | storeProposal sp ps _ _ _ _ _ hs => exact keep_proposal h hs
  | acceptProposal sp ps _ _ _ _ _ _ hs => exact keep_proposal h hs
  | adopt st _ _ hh =>
    have hlt' : st.height < hgt m := hlt
    refine inCache_congr ?_ ?_ h
    · show AMap.get? ((s.votes.flush (st.height - 1)).getHeightVotes e.sh st.height).2 _ = _
      rw [get?_adopted_votes, if_neg (by omega), if_pos (by omega)]
    · show AMap.get? ((s.proposals.flush (st.height - 1)).getHeightProposals e.sh st.height).2 _ = _
      rw [get?_adopted_proposals, if_neg (by omega), if_pos (by omega)]
  | restoreLock w b lock h1 => exact absurd h1 hi
  | _ => exact inCache_congr rfl rfl h

/-- What is cached for a height is verified again when the node adopts a status of it. -/
theorem recheck_mem (sh : Shuffle) {s : State T} {m : OverlordMsg T} (st : Status) (h : InCache s m)
    (hh : st.height = hgt m) : m ∈ s.recheck sh st := by
  unfold State.recheck ProposalCollector.getHeightProposals ProposalCollector.flush VoteCollector.getHeightVotes
    VoteCollector.flush
  rw [AMap.get?_splitOff, if_pos (by omega), AMap.get?_splitOff, if_pos (by omega), hh]
  simp only [List.mem_append, List.mem_map]
  cases m with
  | signedProposal sp =>
    simp only [InCache, ProposalCollector.get, hgt] at h ⊢
    left; left
    split at h
    · rename_i sp' h1
      simp only [Except.ok.injEq] at h
      subst h
      obtain ⟨mm, h2, h3⟩ := Option.bind_eq_some_iff.1 h1
      rw [h2]
      refine ⟨sp', ?_, rfl⟩
      simp only [Option.getD_some]
      exact (sh.perm _).mem_iff.2 (List.mem_map.2 ⟨_, AMap.mem_of_get? _ h3, rfl⟩)
    · cases h
  | signedVote sv =>
    simp only [InCache, poolD, VoteCollector.pool, hgt] at h ⊢
    left; right
    cases h1 : AMap.get? s.votes sv.vote.height with
    | none => rw [h1] at h; simp [Votes.new, AMap.get?] at h
    | some v =>
      rw [h1] at h
      cases h2 : v.general.get? sv.vote.round with
      | none => simp [h2, Votes.new, AMap.get?] at h
      | some rc =>
        simp only [Option.bind_some, h2, Option.map_some, Option.getD_some] at h ⊢
        refine ⟨sv, List.mem_flatMap.2 ⟨rc, (sh.perm _).mem_iff.2 (List.mem_map.2 ⟨_, AMap.mem_of_get? _ h2, rfl⟩), ?_⟩, rfl⟩
        rw [List.mem_append]
        cases ht : sv.vote.voteType <;> rw [ht] at h
        · left; exact (sh.perm _).mem_iff.2 (List.mem_map.2 ⟨_, AMap.mem_of_get? _ h, rfl⟩)
        · right; exact (sh.perm _).mem_iff.2 (List.mem_map.2 ⟨_, AMap.mem_of_get? _ h, rfl⟩)
  | aggregatedVote qc =>
    simp only [InCache, qcId, Option.bind_eq_some_iff, hgt] at h ⊢
    right
    obtain ⟨v, h1, rc, h2, h3⟩ := h
    rw [h1]
    simp only [Option.getD_some]
    refine ⟨qc, List.mem_flatMap.2 ⟨rc, (sh.perm _).mem_iff.2 (List.mem_map.2 ⟨_, AMap.mem_of_get? _ h2, rfl⟩), ?_⟩, rfl⟩
    unfold QuorumCertificate.getAll
    cases ht : qc.voteType <;> rw [ht] at h3 <;> simp only [QuorumCertificate.get] at h3 <;> simp [h3]
  | _ => exact absurd h (by simp [InCache])

/-- What the state and log look like once the node is at the height. -/
def Rechecked (i : Input T) (m : OverlordMsg T) (w : World T) : Prop :=
  w.st.consensusPower = false ∨ (∃ r, Effect.saveWal r false ∈ w.log) ∨
  ((∃ st, i = .verified (.richStatus st)) ∨ ∃ h, i = .event (.commit h)) ∧
    w.st.hashWithBlock = [] ∧ .spawnVerify m w.st.authority ∈ w.log

theorem rechecked_step {e : Env T} {i : Input T} (hi : i ≠ .start) {m : OverlordMsg T} {w : World T}
    {eff : List (Effect T)} {s' : State T} (hm : Micro e i w.st eff s') (hh : s'.height = w.st.height)
    (h : Rechecked i m w) : Rechecked i m ⟨s', w.log ++ eff⟩ := by
  have hpow : s'.consensusPower = w.st.consensusPower := by
    cases hm with
    | move st _ h1 => exact absurd hh (by show ¬ st.height = w.st.height; omega)
    | moveLost st _ _ h1 => exact absurd hh (by show ¬ st.height = w.st.height; omega)
    | adopt st _ _ h1 => exact absurd hh (by show ¬ st.height = w.st.height; omega)
    | _ => rfl
  rcases h with h | ⟨r, h⟩ | ⟨hin, hb, hl⟩
  · exact .inl (by rw [hpow]; exact h)
  · exact .inr (.inl ⟨r, List.mem_append_left _ h⟩)
  · refine .inr (.inr ⟨hin, ?_⟩)
    have keep : s'.hashWithBlock = w.st.hashWithBlock → s'.authority = w.st.authority →
        s'.hashWithBlock = [] ∧ Effect.spawnVerify m s'.authority ∈ w.log ++ eff := by
      intro h1 h2
      rw [h1, h2]
      exact ⟨hb, List.mem_append_left _ hl⟩
    have nope : ∀ sp, ¬ ProposalInput i w.st sp := by
      intro sp hp
      rcases hp with h1 | ⟨⟨r, lr, lp, f, x, ni, nc, h1⟩, _⟩
      · rcases hin with ⟨st, h2⟩ | ⟨k, h2⟩ <;> rw [h1] at h2 <;> cases h2
      · rcases hin with ⟨st, h2⟩ | ⟨k, h2⟩ <;> rw [h1] at h2 <;> cases h2
    cases hm with
    | commit hash content qc _ _ h1 => rw [hb] at h1; simp [AMap.get?] at h1
    | storeBlock sp h1 => exact absurd h1 (nope sp)
    | ownBlock hash block h1 =>
      obtain ⟨r, lr, lp, f, x, ni, nc, h1⟩ := h1
      exfalso
      rcases hin with ⟨st, h2⟩ | ⟨k, h2⟩ <;> rw [h1] at h2 <;> cases h2
    | restoreLock w b lock h1 => exact absurd h1 hi
    | move st _ h1 => exact absurd hh (by show ¬ st.height = w.st.height; omega)
    | moveLost st _ _ h1 => exact absurd hh (by show ¬ st.height = w.st.height; omega)
    | adopt st _ _ h1 => exact absurd hh (by show ¬ st.height = w.st.height; omega)
    | _ => exact keep rfl rfl

/-- The arm that takes a validator to the height of a cached message verifies it again. -/
theorem reaches_rechecks {e : Env T} {i : Input T} (hi : i ≠ .start) {m : OverlordMsg T} (hsp : Spares i m)
    {s : State T} (h : InCache s m) (hr : Reaches (hgt m) e i s) :
    .spawnVerify m (next e i s).authority ∈ effects e i s := by
  have key : ∀ w : World T, w = (runArm i e ⟨s, []⟩).2 →
      (w.st.height < hgt m → InCache w.st m) ∧ (w.st.height = hgt m → Rechecked i m w) := by
    intro w hw
    rw [hw]
    refine arm_inv (P := fun w => (w.st.height < hgt m → InCache w.st m) ∧ (w.st.height = hgt m → Rechecked i m w))
      ⟨fun _ => h, fun h0 => by have := hr.below; dsimp only at h0; omega⟩ ?_
    rintro w eff s' ⟨h1, h2⟩ hm
    have hup := height_up hi hm
    refine ⟨fun hlt => kept_micro hi hsp hm (h1 (by dsimp only at hlt; omega)) hlt, fun heq => ?_⟩
    dsimp only at heq
    by_cases hat : w.st.height = hgt m
    · exact rechecked_step hi hm (by rw [heq, hat]) (h2 hat)
    · have hin := h1 (by omega)
      have same : s'.height = w.st.height → False := fun hh => hat (by rw [← hh, heq])
      cases hm with
      | move st _ _ hp => exact .inl hp
      | moveLost st => exact .inr (.inl ⟨_, List.mem_append_right _ (List.mem_singleton.2 rfl)⟩)
      | adopt st _ h3 hh hp =>
        refine .inr (.inr ⟨?_, rfl, ?_⟩)
        · rcases h3 with h3 | h3 | h3
          · exact .inl ⟨_, h3⟩
          · exact absurd h3 hi
          · exact .inr h3
        · have := recheck_mem e.sh st hin heq
          show Effect.spawnVerify m (Authority.update st.authorityList) ∈ _
          simp only [List.mem_append, List.mem_cons, List.mem_map]
          right; left; right
          exact ⟨m, this, rfl⟩
      | restorePos w b h3 => exact absurd h3 hi
      | _ => exact absurd rfl same
  obtain ⟨_, h2⟩ := key _ rfl
  rcases h2 hr.there with h3 | ⟨r, h3⟩ | ⟨_, _, h3⟩
  · exact absurd hr.power (by show ¬ (runArm i e ⟨s, []⟩).2.st.consensusPower = true; rw [h3]; decide)
  · exact absurd h3 (hr.saved r)
  · exact h3

/-- Over any history without a restart, as long as the node has not reached the height. -/
theorem kept_after {m : OverlordMsg T} {s0 s : State T} {ins : List (Env T × Input T)} (h0 : InCache s0 m)
    (ha : s0.after ins = some s) (hi : ∀ x ∈ ins, x.2 ≠ .start) (hsp : ∀ x ∈ ins, Spares x.2 m)
    (hlt : s.height < hgt m) : InCache s m := by
  refine (after_inv (P := fun ins s => (∀ x ∈ ins, x.2 ≠ .start) → (∀ x ∈ ins, Spares x.2 m) →
    s.height < hgt m → InCache s m) (fun _ _ _ => h0) ?_ ha) hi hsp hlt
  intro ins s e i ih h1 h2 hlt
  have hi1 : i ≠ .start := h1 (e, i) (by simp)
  have hs1 : Spares i m := h2 (e, i) (by simp)
  have ih := ih (fun x hx => h1 x (by simp [hx])) (fun x hx => h2 x (by simp [hx]))
  exact (arm_state_inv (P := fun s => s.height < hgt m → InCache s m) ih fun s eff s' hp hm hlt =>
    kept_micro hi1 hs1 hm (hp (Nat.lt_of_le_of_lt (height_up hi1 hm) hlt)) hlt) hlt

end Early
end Overlord
