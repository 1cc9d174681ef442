import Verif.Proofs.GoodSt

/-! The State of a node in a good round: single changes. -/

set_option linter.unusedSimpArgs false
set_option linter.unusedVariables false
set_option linter.unusedSectionVars false

namespace Overlord.Good
open M Spec

variable {T : Type} {g : GoodRound T} {P : Option (SignedProposal T)}

theorem hasQc_iff (s : State T) (ty : VoteType) : HasQc g s ty ↔ ∃ qc, qcId s.votes g.height g.round ty = some qc := by
  unfold HasQc
  simp only [getQcById_iff]

/-! ### A certificate is stored -/

theorem setQc_inv0 {s : State T} (hP : P ≠ none) (hs : Inv0 g P s) {ty : VoteType} {qc : AggregatedVote} (hq : GoodQc g ty qc) :
    Inv0 g P { s with votes := s.votes.setQc qc } := by
  obtain ⟨q1, q2, q3, q4⟩ := hq
  have hid : ∀ ty', qcId (s.votes.setQc qc) g.height g.round ty' = if ty = ty' then some qc else qcId s.votes g.height g.round ty' := by
    intro ty'
    rw [qcId_setQc]
    simp only [q1, q2, q3, true_and]
  have hh : ∀ ty', (s.votes.setQc qc).getQcByHash g.height g.hash ty' = if ty = ty' then some qc else s.votes.getQcByHash g.height g.hash ty' := by
    intro ty'
    rw [getQcByHash_setQc]
    simp only [q1, q4, q3, true_and]
  have hgrow : ∀ ty', HasQc g s ty' → HasQc g { s with votes := s.votes.setQc qc } ty' := by
    intro ty' h
    rw [hasQc_iff] at *
    obtain ⟨q, h⟩ := h
    dsimp only
    rw [hid]
    split
    · exact ⟨_, rfl⟩
    · exact ⟨q, h⟩
  refine { hs with qc := ?_, byV := ?_, byP := ?_, byC := ?_, pool := ?_, calm := fun h => absurd h hP }
  · intro ty' q h
    rw [getQcById_iff] at h
    dsimp only at h
    rw [hid] at h
    split at h
    · rename_i h1; cases h; exact ⟨q1, q2, h1 ▸ q3, q4⟩
    · exact hs.qc ty' q ((getQcById_iff ..).2 h)
  · intro ty' h
    dsimp only
    rw [hh]
    by_cases h1 : ty = ty'
    · rw [if_pos h1]; exact ⟨qc, rfl, q1, q2, h1 ▸ q3, q4⟩
    · rw [if_neg h1]
      apply hs.byV
      rw [hasQc_iff] at *
      dsimp only at h
      rw [hid, if_neg h1] at h
      exact h
  · intro q h
    dsimp only at h
    rw [hh] at h
    split at h
    · rename_i h1
      cases h
      refine ⟨q1, q4, fun _ => ?_⟩
      rw [hasQc_iff]
      exact ⟨qc, by dsimp only; rw [hid, if_pos h1]⟩
    · obtain ⟨h2, h3, h4⟩ := hs.byP q h
      exact ⟨h2, h3, fun h5 => hgrow _ (h4 h5)⟩
  · intro q h
    dsimp only at h
    rw [hh] at h
    split at h
    · rename_i h1
      cases h
      refine ⟨⟨q1, q2, h1 ▸ q3, q4⟩, ?_⟩
      rw [hasQc_iff]
      exact ⟨qc, by dsimp only; rw [hid, if_pos h1]⟩
    · obtain ⟨h2, h3⟩ := hs.byC q h
      exact ⟨h2, hgrow _ h3⟩
  · intro ty'
    dsimp only
    rw [poolD_setQc]
    exact hs.pool ty'

theorem setQc_voted {s : State T} {qc : AggregatedVote} (ty : VoteType) (a : Address) :
    voted g { s with votes := s.votes.setQc qc } ty a = voted g s ty a := by
  unfold voted
  dsimp only
  rw [poolD_setQc]

theorem setQc_grow {s : State T} (hs : Inv0 g P s) {ty : VoteType} {qc : AggregatedVote} (hq : GoodQc g ty qc) :
    Grow g s { s with votes := s.votes.setQc qc } := by
  refine { Grow.refl s with qc := ?_, vote := ?_, height := rfl, address := rfl, chokes := fun _ _ h => h, few := id, round := Nat.le_refl _ }
  · intro x ty' q h
    simp only [getQcById_iff] at *
    rw [qcId_setQc]
    split
    · rename_i h1
      refine ⟨_, rfl, ?_⟩
      obtain ⟨h2, h3, h4⟩ := h1
      rw [hq.2.1] at h3
      subst h3
      rw [hq.2.2.2, (hs.qc ty' q ((getQcById_iff ..).2 h)).2.2.2]
    · exact ⟨q, h, rfl⟩
  · intro ty' a h
    rw [setQc_voted]; exact h

theorem setQc_has {s : State T} {ty : VoteType} {qc : AggregatedVote} (hq : GoodQc g ty qc) :
    HasQc g { s with votes := s.votes.setQc qc } ty := by
  rw [hasQc_iff]
  refine ⟨qc, ?_⟩
  dsimp only
  rw [qcId_setQc, if_pos ⟨hq.1, hq.2.1, hq.2.2.1⟩]

theorem setQc_only {s : State T} {ty ty' : VoteType} {qc : AggregatedVote} (hq : GoodQc g ty qc)
    (h : HasQc g { s with votes := s.votes.setQc qc } ty') : HasQc g s ty' ∨ ty' = ty := by
  rw [hasQc_iff] at *
  dsimp only at h
  rw [qcId_setQc] at h
  split at h
  · rename_i h1; exact .inr (by rw [← h1.2.2, hq.2.2.1])
  · exact .inl h

theorem setQc_inv {s : State T} (hP : P ≠ none) (hs : Inv0 g P s) {ty : VoteType} {qc : AggregatedVote} (hq : GoodQc g ty qc)
    (hQ : ∀ ty', ty' ≠ ty → Quorum g.list (voted g s ty') → HasQc g s ty') :
    Inv g P { s with votes := s.votes.setQc qc } := by
  refine { setQc_inv0 hP hs hq with poolQ := ?_ }
  intro ty' h
  by_cases h1 : ty' = ty
  · subst h1; exact setQc_has hq
  · refine (setQc_grow hs hq).hasQc (hQ ty' h1 ?_)
    exact (quorum_congr fun a => setQc_voted ty' a).1 h

/-! ### A vote is stored -/

theorem insertVote_hasQc {s : State T} {hash : Hash} {sv : SignedVote} {a : Address} (ty : VoteType) :
    HasQc g { s with votes := s.votes.insertVote hash sv a } ty ↔ HasQc g s ty := by
  rw [hasQc_iff, hasQc_iff]
  dsimp only
  rw [qcId_insertVote]

theorem insertVote_inv0 {s : State T} (hs : Inv0 g P s) {sv : SignedVote}
    (hv : sv.vote.height = g.height → sv.vote.round = g.round → GoodV g sv ∧ (g.live sv.voter = true → P ≠ none)) :
    Inv0 g P { s with votes := s.votes.insertVote sv.vote.blockHash sv sv.voter } := by
  have hid : ∀ x ty, (s.votes.insertVote sv.vote.blockHash sv sv.voter).getQcById g.height x ty = s.votes.getQcById g.height x ty := by
    intro x ty
    unfold VoteCollector.getQcById
    have := qcId_insertVote s.votes sv.vote.blockHash sv sv.voter g.height x ty
    unfold qcId at this
    rw [this]
  refine { hs with qc := ?_, byV := ?_, byP := ?_, byC := ?_, pool := ?_, calm := ?_ }
  · intro ty q h; dsimp only at h; rw [hid] at h; exact hs.qc ty q h
  · intro ty h; dsimp only; rw [getQcByHash_insertVote]; exact hs.byV ty ((insertVote_hasQc ty).1 h)
  · intro q h; dsimp only at h; rw [getQcByHash_insertVote] at h
    obtain ⟨h1, h2, h3⟩ := hs.byP q h
    exact ⟨h1, h2, fun h4 => (insertVote_hasQc _).2 (h3 h4)⟩
  · intro q h; dsimp only at h; rw [getQcByHash_insertVote] at h
    obtain ⟨h1, h2⟩ := hs.byC q h
    exact ⟨h1, (insertVote_hasQc _).2 h2⟩
  · intro ty
    dsimp only
    rw [poolD_insertVote]
    split
    · rename_i h; exact (hs.pool ty).insert h.1 h.2.1 h.2.2 (hv h.1 h.2.1).1
    · exact hs.pool ty
  · intro hP
    refine ⟨fun ty h => (hs.calm hP).1 ty ((insertVote_hasQc ty).1 h), fun ty a ha => ?_⟩
    have h0 := (hs.calm hP).2 ty a ha
    unfold voted at h0 ⊢
    dsimp only
    rw [poolD_insertVote]
    by_cases hc : sv.vote.height = g.height ∧ sv.vote.round = g.round ∧ sv.vote.voteType = ty
    · rw [if_pos hc]
      unfold Votes.insert
      by_cases hin : (poolD s.votes g.height g.round ty).byAddress.contains sv.voter = true
      · rw [if_pos hin]; exact h0
      · rw [if_neg hin]
        simp only
        rw [AMap.get?_insert]
        by_cases h1 : sv.voter = a
        · exact absurd hP ((hv hc.1 hc.2.1).2 (by rw [h1]; exact ha))
        · rw [if_neg h1]; exact h0
    · rw [if_neg hc]; exact h0

theorem insertVote_grow {s : State T} {sv : SignedVote} :
    Grow g s { s with votes := s.votes.insertVote sv.vote.blockHash sv sv.voter } := by
  refine { Grow.refl s with qc := ?_, vote := ?_, height := rfl, address := rfl, chokes := fun _ _ h => h, few := id, round := Nat.le_refl _ }
  · intro x ty q h
    refine ⟨q, ?_, rfl⟩
    rw [getQcById_iff] at *
    dsimp only
    rw [qcId_insertVote]; exact h
  · intro ty a h
    unfold voted at *
    dsimp only
    rw [poolD_insertVote]
    by_cases hc : sv.vote.height = g.height ∧ sv.vote.round = g.round ∧ sv.vote.voteType = ty
    · rw [if_pos hc]
      split at h
      · rename_i v hv
        have : ((poolD s.votes g.height g.round ty).insert sv.vote.blockHash sv.voter sv).byAddress.get? a = some v := by
          unfold Votes.insert
          split
          · exact hv
          · rename_i hc
            simp only
            rw [AMap.get?_insert]
            split
            · rename_i h1
              rw [h1] at hc
              simp [AMap.contains, hv] at hc
            · exact hv
        rw [this]
        exact h
      · cases h
    · rw [if_neg hc]; exact h

/-- The vote of a live node is counted for the block. -/
theorem insertVote_taken {s : State T} (hs : Inv0 g P s) {ty : VoteType} {sv : SignedVote} (hv : sv.vote = ⟨g.height, g.round, ty, g.hash⟩)
    (hl : g.live sv.voter = true) :
    voted g { s with votes := s.votes.insertVote sv.vote.blockHash sv sv.voter } ty sv.voter = true := by
  unfold voted
  dsimp only
  rw [poolD_insertVote, if_pos (by rw [hv]; exact ⟨rfl, rfl, rfl⟩)]
  unfold Votes.insert
  by_cases hc : (poolD s.votes g.height g.round ty).byAddress.contains sv.voter = true
  · rw [if_pos hc]
    simp only [AMap.contains, Option.isSome_iff_exists] at hc
    obtain ⟨v, hc⟩ := hc
    rw [hc]
    have := (hs.pool ty).all _ (AMap.mem_of_get? _ hc)
    simp only [decide_eq_true_eq]
    apply this.2.2.2.2.2
    rw [this.2.2.2.1]; exact hl
  · rw [if_neg hc]
    simp only [AMap.get?_insert_self]
    rw [hv]; simp

/-! ### Other changes -/

theorem getQcById_setQc_other (c : VoteCollector) (qc : AggregatedVote) (h x : Nat) (ty : VoteType) (hh : qc.height ≠ h) :
    (c.setQc qc).getQcById h x ty = c.getQcById h x ty := by
  have := qcId_setQc c qc h x ty
  rw [if_neg (fun hc => hh hc.1)] at this
  unfold VoteCollector.getQcById
  unfold qcId at this
  rw [this]

theorem getQcById_insertVote_same (c : VoteCollector) (hash : Hash) (sv : SignedVote) (a : Address) (h x : Nat) (ty : VoteType) :
    (c.insertVote hash sv a).getQcById h x ty = c.getQcById h x ty := by
  have := qcId_insertVote c hash sv a h x ty
  unfold VoteCollector.getQcById
  unfold qcId at this
  rw [this]

/-- The votes and certificates of the height are the same. -/
structure SameV (g : GoodRound T) (c c' : VoteCollector) : Prop where
  qc : ∀ x ty, c'.getQcById g.height x ty = c.getQcById g.height x ty
  hash : ∀ ty, c'.getQcByHash g.height g.hash ty = c.getQcByHash g.height g.hash ty
  pool : ∀ ty, poolD c' g.height g.round ty = poolD c g.height g.round ty

theorem SameV.refl (c : VoteCollector) : SameV g c c := ⟨fun _ _ => rfl, fun _ => rfl, fun _ => rfl⟩

theorem SameV.setQc (c : VoteCollector) {qc : AggregatedVote} (h : qc.height ≠ g.height) : SameV g c (c.setQc qc) :=
  ⟨fun _ _ => getQcById_setQc_other _ _ _ _ _ h, fun ty => by rw [getQcByHash_setQc, if_neg (fun hc => h hc.1)], fun ty => poolD_setQc ..⟩

theorem SameV.insertVote (c : VoteCollector) {sv : SignedVote} (h : ¬ (sv.vote.height = g.height ∧ sv.vote.round = g.round)) :
    SameV g c (c.insertVote sv.vote.blockHash sv sv.voter) :=
  ⟨fun _ _ => getQcById_insertVote_same .., fun ty => getQcByHash_insertVote ..,
   fun ty => by rw [poolD_insertVote, if_neg (fun hc => h ⟨hc.1, hc.2.1⟩)]⟩

/-- `s'` stores the same about the round. -/
structure Same (g : GoodRound T) (s s' : State T) : Prop where
  height : s'.height = s.height
  address : s'.address = s.address
  power : s'.consensusPower = s.consensusPower
  running : s'.stopped = s.stopped
  authority : s'.authority = s.authority
  votes : SameV g s.votes s'.votes
  prop : s'.proposals.get g.height g.round = s.proposals.get g.height g.round
  blocks : s'.hashWithBlock = s.hashWithBlock
  full : s'.isFullTransaction = s.isFullTransaction
  chokes : ∀ x qc, s.chokes.getQc x = some qc → s'.chokes.getQc x = some qc
  few : FaultyChokes g s → FaultyChokes g s'

theorem Same.hasQc {s s' : State T} (h : Same g s s') (ty : VoteType) : HasQc g s' ty ↔ HasQc g s ty := by
  unfold HasQc; rw [h.votes.qc]

theorem Same.known {s s' : State T} (h : Same g s s') : Known g s' ↔ Known g s := by unfold Known; rw [h.blocks]

theorem Same.fulls {s s' : State T} (h : Same g s s') : Full g s' ↔ Full g s := by
  unfold Full State.tryGetFullTxs; rw [h.full]

theorem Same.voted {s s' : State T} (h : Same g s s') (ty : VoteType) (a : Address) : voted g s' ty a = voted g s ty a := by
  unfold Good.voted; rw [h.votes.pool]

theorem Same.inv {s s' : State T} (h : Same g s s') (hs : Inv g P s) (h1 : s'.round ≤ g.round) (h2 : g.round ≤ s'.round + FUTURE_ROUND_GAP) :
    Inv g P s' where
  height := h.height.trans hs.height
  live := by rw [h.address]; exact hs.live
  power := h.power.trans hs.power
  running := h.running.trans hs.running
  authority := h.authority.trans hs.authority
  qc := fun ty qc => by rw [h.votes.qc]; exact hs.qc ty qc
  byV := fun ty => by rw [h.hasQc, h.votes.hash]; exact hs.byV ty
  byP := fun q => by rw [h.hasQc, h.votes.hash]; exact hs.byP q
  byC := fun q => by rw [h.hasQc, h.votes.hash]; exact hs.byC q
  prop := fun sp => by rw [h.prop]; exact hs.prop sp
  blk := fun c => by rw [h.blocks]; exact hs.blk c
  full := by rw [h.known, h.fulls]; exact hs.full
  pool := fun ty => by rw [h.votes.pool]; exact hs.pool ty
  low := h1
  near := h2
  calm := fun hP => ⟨fun ty h' => (hs.calm hP).1 ty ((h.hasQc ty).1 h'), fun ty a ha => by rw [h.voted]; exact (hs.calm hP).2 ty a ha⟩
  poolQ := fun ty hq => (h.hasQc ty).2 (hs.poolQ ty ((quorum_congr fun a => h.voted ty a).1 hq))

theorem Same.grow {s s' : State T} (h : Same g s s') (h1 : s.round ≤ s'.round) : Grow g s s' where
  height := h.height
  address := h.address
  chokes := h.chokes
  few := h.few
  qc := fun x ty qc hq => ⟨qc, by rw [h.votes.qc]; exact hq, rfl⟩
  blk := fun k c hc => ⟨c, by rw [h.blocks]; exact hc⟩
  full := h.fulls.2
  vote := fun ty a hv => by rw [h.voted]; exact hv
  prop := fun sp hp => by rw [h.prop]; exact hp
  round := h1

/-- Effects outside the round: records, own votes, reports, requests for blocks. -/
def Silent : Effect T → Prop
  | .ownVote _ => True
  | .saveWal _ _ => True
  | .getBlock _ _ => True
  | .reportViewChange _ _ _ => True
  | _ => False

theorem trigsOf_silent {eff : List (Effect T)} (h : ∀ x ∈ eff, Silent x) : trigsOf eff = [] := by
  unfold trigsOf
  rw [List.filterMap_eq_nil_iff]
  intro x hx
  have := h x hx
  cases x <;> simp_all [Silent]

theorem Post.silent {s s' : State T} (hg : Grow g s s') (hq : ∀ ty, HasQc g s' ty → HasQc g s ty) (hf : Full g s' → Full g s)
    {eff : List (Effect T)} (h : ∀ x ∈ eff, Silent x) {src : VoteType → Prop} : Post g P src s eff s' where
  grow := hg
  trig := by rw [trigsOf_silent h]; simp
  chk := fun _ _ _ _ hm => absurd (h _ hm) id
  bc := fun _ hm => absurd (h _ hm) id
  tr := fun _ _ hm => absurd (h _ hm) id
  ver := fun _ _ hm => absurd (h _ hm) id
  fwd := fun _ hm => absurd (h _ hm) id
  progV := fun h1 h2 => .inl ⟨hq _ h1, hf h2⟩
  progC := fun h1 h2 => .inl ⟨hq _ h1, hf h2⟩
  new := fun ty h1 => .inl (hq ty h1)

theorem Same.post {s s' : State T} (h : Same g s s') (h1 : s.round ≤ s'.round) {eff : List (Effect T)} (he : ∀ x ∈ eff, Silent x)
    {src : VoteType → Prop} : Post g P src s eff s' :=
  .silent (h.grow h1) (fun ty => (h.hasQc ty).1) h.fulls.1 he

theorem Post.weaken {src src' : VoteType → Prop} {s s' : State T} {eff : List (Effect T)} (h : Post g P src s eff s')
    (hs : ∀ ty, src ty → src' ty ) : Post g P src' s eff s' :=
  { h with new := fun ty hq => (h.new ty hq).imp id (Or.imp (hs ty) id) }

theorem Inv.mono {P' : Option (SignedProposal T)} {s : State T} (h : Inv g P s) (hp : ∀ sp, P = some sp → P' = some sp) : Inv g P' s :=
  { h with
    prop := fun sp hs => hp sp (h.prop sp hs)
    calm := fun h' => h.calm (by
      cases hP : P with
      | none => rfl
      | some sp => have := hp sp hP; rw [h'] at this; cases this) }

end Overlord.Good
