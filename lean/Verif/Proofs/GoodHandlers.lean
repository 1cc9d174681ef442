import Verif.Proofs.GoodSt2

/-! The State of a node in a good round: the handlers. -/

set_option linter.unusedSimpArgs false
set_option linter.unusedVariables false
set_option linter.unusedSectionVars false

namespace Overlord.Good
open M Spec

variable {T : Type} [ContentCodec T] [DecidableEq T] {g : GoodRound T} {P : Option (SignedProposal T)}

/-- The position in the round does not change. -/
def Keep (s s' : State T) : Prop :=
  s'.round = s.round ∧ s'.isLeader = s.isLeader ∧ s'.leaderAddress = s.leaderAddress

theorem Keep.refl (s : State T) : Keep s s := ⟨rfl, rfl, rfl⟩

/-- The outcome of a handler started in `s` with log `l`. -/
def Res (g : GoodRound T) (P : Option (SignedProposal T)) (src : VoteType → Prop) (s : State T) (l : List (Effect T))
    (X : List (Effect T) → State T → Prop) (w : World T) : Prop :=
  ∃ eff, w.log = l ++ eff ∧ Inv g P w.st ∧ Post g P src s eff w.st ∧ X eff w.st

/-- The handler ends in `R`, without a panic. -/
def OkW {α : Type} (m : M T α) (e : Env T) (w : World T) (R : World T → Prop) : Prop :=
  wp m e w (fun _ => R) (fun x w => x ≠ .panic ∧ R w)

theorem OkW.mono {α : Type} {m : M T α} {e : Env T} {w : World T} {R R' : World T → Prop} (h : OkW m e w R) (hR : ∀ w, R w → R' w) :
    OkW m e w R' := wp_mono h (fun _ _ => hR _) (fun _ _ h => ⟨h.1, hR _ h.2⟩)

theorem GoodEnv.sig {e : Env T} (he : GoodEnv g e) (h : Hash) : ∃ sig, e.crypto.sign h = some sig :=
  Option.isSome_iff_exists.1 (he.signs h)

section
variable (hg : g.Ok) {e : Env T} (he : GoodEnv g e)
include hg he

/-- Counting, and what follows if there is a quorum. -/
theorem ok_tail {s : State T} {l : List (Effect T)} (hs : Inv0 g P s) (hr : s.round = g.round) {ty : VoteType}
    (hQ : ∀ ty', ty' ≠ ty → Quorum g.list (voted g s ty') → HasQc g s ty')
    {s0 : State T} (h0 : s0.isFullTransaction = s.isFullTransaction)
    {k : AggregatedVote → Nat × Nat} (hk : ∀ qc, qc.height = s.height → qc.round = s.round → k qc = (s.round, s.height)) :
    OkW (do
        match ← countVotes ty with
        | none => pure ()
        | some hash =>
          let qc ← generateQc hash ty
          modify fun s => { s with votes := s.votes.setQc qc }
          broadcast (.aggregatedVote qc)
          if s0.tryGetFullTxs hash = false then pure ()
          else emit (.trigger (stTrigger ty.toTrigger hash none (k qc).1 (k qc).2))) e ⟨s, l⟩
      (Res g P (fun _ => False) s l (fun _ s' => Keep s s')) := by
  have nothing : ¬ Quorum g.list (voted g s ty) → Res g P (fun _ => False) s l (fun _ s' => Keep s s') ⟨s, l⟩ := by
    intro hn
    refine ⟨[], by simp, { hs with poolQ := ?_ }, .silent (.refl s) (fun _ h => h) id (by simp), .refl s⟩
    intro ty' h
    by_cases h1 : ty' = ty
    · subst h1; exact absurd h hn
    · exact hQ ty' h1 h
  unfold OkW countVotes generateQc broadcast aggregateSignatures
  wps
  rcases count_spec hg hs hr e.sh ty with ⟨hn, hc | hc⟩ | ⟨hq, hc, vs, hvs⟩
  · rw [hc]
    refine ⟨fun o ho => ?_, fun _ h => by cases h⟩
    cases ho
    exact nothing hn
  · rw [hc]
    refine ⟨fun o ho => (by cases ho), fun x h => ?_⟩
    cases h
    exact ⟨by simp, nothing hn⟩
  · rw [hc]
    refine ⟨fun o ho => ?_, fun _ h => by cases h⟩
    cases ho
    wps
    rw [hvs]
    refine ⟨fun vs' hv => ?_, fun _ h => by cases h⟩
    cases hv
    obtain ⟨sig, hsig⟩ := Option.isSome_iff_exists.1 (he.aggregates ((sortVotes vs).map SignedVote.signature) ((sortVotes vs).map SignedVote.voter))
    rw [hsig]
    refine ⟨fun sig' h => ?_, fun h => by cases h⟩
    cases h
    generalize hqc : (AggregatedVote.mk _ _ _ _ _ _ : AggregatedVote) = qc
    have hgq : GoodQc g ty qc := by subst hqc; exact ⟨hs.height, hr, rfl, rfl⟩
    have hkq : k qc = (g.round, g.height) := by
      rw [hk qc (by rw [hgq.1, hs.height]) (by rw [hgq.2.1, hr]), hr, hs.height]
    have hP : P ≠ none := by
      intro h
      obtain ⟨n, _, h1, h2⟩ := quorum_meet hq hg.quorum
      rw [(hs.calm h).2 ty _ h2] at h1; cases h1
    have hinv := setQc_inv hP hs hgq hQ
    have hgrow := setQc_grow hs hgq
    have hfull : s0.tryGetFullTxs g.hash = true ↔ Full g s := by unfold Full State.tryGetFullTxs; rw [h0]
    refine ⟨fun hf => ?_, fun hf => ?_⟩
    · refine ⟨[.broadcast (.aggregatedVote qc)], rfl, hinv, ?_, ⟨rfl, rfl, rfl⟩⟩
      have hnf : ¬ Full g s := by rw [← hfull, hf]; simp
      refine ⟨hgrow, by simp [trigsOf], by simp, ?_, by simp, by simp, by simp, ?_, ?_, ?_⟩
      · intro m hm
        simp only [List.mem_singleton, Effect.broadcast.injEq] at hm
        exact .inl ⟨ty, qc, hm, hgq, setQc_has hgq⟩
      · intro _ h2; exact absurd h2 hnf
      · intro _ h2; exact absurd h2 hnf
      · intro ty' h1
        rcases setQc_only hgq h1 with h2 | h2
        · exact .inl h2
        · exact .inr (.inr ⟨qc, by simp, h2 ▸ hgq⟩)
    · have hf := (Bool.not_eq_false _).mp hf
      have hF := hfull.1 hf
      rw [hkq]
      refine ⟨[.broadcast (.aggregatedVote qc), .trigger (tQ g ty)], by simp [tQ], hinv, ?_, ⟨rfl, rfl, rfl⟩⟩
      refine ⟨hgrow, ?_, by simp, ?_, by simp, by simp, by simp, ?_, ?_, ?_⟩
      · intro t ht
        simp only [trigsOf, List.filterMap_cons, List.filterMap_nil, List.mem_singleton] at ht
        subst ht
        exact ⟨hgrow.known hinv.toInv0 (hs.full hF), hP, .inr ⟨ty, rfl, setQc_has hgq⟩⟩
      · intro m hm
        simp only [List.mem_cons, List.mem_singleton, Effect.broadcast.injEq, List.not_mem_nil, or_false, reduceCtorEq] at hm
        exact .inl ⟨ty, qc, hm, hgq, setQc_has hgq⟩
      · intro h1 _
        rcases setQc_only hgq h1 with h2 | h2
        · exact .inl ⟨h2, hF⟩
        · subst h2; exact .inr (.inl (by simp [trigsOf]))
      · intro h1 _
        rcases setQc_only hgq h1 with h2 | h2
        · exact .inl ⟨h2, hF⟩
        · subst h2; exact .inr (by simp [trigsOf])
      · intro ty' h1
        rcases setQc_only hgq h1 with h2 | h2
        · exact .inl h2
        · exact .inr (.inr ⟨qc, by simp, h2 ▸ hgq⟩)

/-- A certificate of the round arrives. -/
theorem ok_qc {s : State T} {l : List (Effect T)} (hP : P ≠ none) (hs : Inv g P s) {ty : VoteType} {qc : AggregatedVote} (hq : GoodQc g ty qc) :
    OkW (handleAggregatedVote qc) e ⟨s, l⟩ (Res g P (fun t => t = ty) s l (fun _ s' => Keep s s' ∧ HasQc g s' ty)) := by
  obtain ⟨q1, q2, q3, q4⟩ := hq
  have hq : GoodQc g ty qc := ⟨q1, q2, q3, q4⟩
  have hlow := hs.low
  unfold OkW handleAggregatedVote
  wps
  have hinv := setQc_inv hP hs.toInv0 hq (fun ty' _ => hs.poolQ ty')
  have hgrow := setQc_grow hs.toInv0 hq
  refine ⟨fun h => absurd h (by rw [q1, hs.height]; omega), fun _ => ⟨fun h => absurd h (by rw [q1, hs.height]; omega), fun _ =>
    ⟨fun h => absurd h.2 (by rw [q2]; omega), fun _ => ⟨fun h => absurd h.2.2 (by rw [q2]; omega), fun _ => ⟨fun hf => ?_, fun hf => ?_⟩⟩⟩⟩⟩
  · have hnf : ¬ Full g s := by unfold Full; rw [← q4, hf.2]; simp
    refine ⟨[], by simp, hinv, ⟨hgrow, by simp [trigsOf], by simp, by simp, by simp, by simp, by simp, ?_, ?_, ?_⟩, ⟨rfl, rfl, rfl⟩, setQc_has hq⟩
    · intro _ h2; exact absurd h2 hnf
    · intro _ h2; exact absurd h2 hnf
    · intro ty' h1
      exact (setQc_only hq h1).imp id .inl
  · have hF : Full g s := by
      have : ¬ (s.tryGetFullTxs qc.blockHash = false) := fun h => hf ⟨by rw [q4]; exact hg.hash, h⟩
      unfold Full
      rw [← q4]
      exact (Bool.not_eq_false _).mp this
    refine ⟨[.trigger (tQ g ty)], by simp [tQ, q1, q2, q3, q4], hinv, ⟨hgrow, ?_, by simp, by simp, by simp, by simp, by simp, ?_, ?_, ?_⟩, ⟨rfl, rfl, rfl⟩, setQc_has hq⟩
    · intro t ht
      simp only [trigsOf, List.filterMap_cons, List.filterMap_nil, List.mem_singleton] at ht
      subst ht
      exact ⟨hgrow.known hinv.toInv0 (hs.full hF), hP, .inr ⟨ty, rfl, setQc_has hq⟩⟩
    · intro h1 _
      rcases setQc_only hq h1 with h2 | h2
      · exact .inl ⟨h2, hF⟩
      · subst h2; exact .inr (.inl (by simp [trigsOf]))
    · intro h1 _
      rcases setQc_only hq h1 with h2 | h2
      · exact .inl ⟨h2, hF⟩
      · subst h2; exact .inr (by simp [trigsOf])
    · intro ty' h1
      exact (setQc_only hq h1).imp id .inl

/-- A vote arrives while the State is in the round: of a live node for the block, or of another validator. -/
theorem ok_vote {s : State T} {l : List (Effect T)} (hs : Inv g P s) (hr : s.round = g.round) {sv : SignedVote}
    (hv : g.live sv.voter = true → ∃ ty, sv.vote = ⟨g.height, g.round, ty, g.hash⟩) (hP : g.live sv.voter = true → P ≠ none) :
    OkW (handleSignedVote sv) e ⟨s, l⟩ (Res g P (fun _ => False) s l (fun _ s' => Keep s s' ∧
      (g.live sv.voter = true → voted g s' sv.vote.voteType sv.voter = true ∨ HasQc g s' sv.vote.voteType))) := by
  have idle : ∀ (X : List (Effect T) → State T → Prop), X [] s → Res g P (fun _ => False) s l (fun x s' => Keep s s' ∧ X x s') ⟨s, l⟩ :=
    fun X hX => ⟨[], by simp, hs, .silent (.refl s) (fun _ h => h) id (by simp), .refl s, hX⟩
  unfold OkW handleSignedVote
  rw [wp_bind, wp_get]
  dsimp only
  rw [wp_ite]
  refine ⟨fun hf => idle (fun _ s' => _) fun hl => ?_, fun hf => ?_⟩
  · obtain ⟨ty, hty⟩ := hv hl
    exfalso
    have := hg.rounds
    have := hg.heights
    simp only [State.filterMessage, hty, hs.height, hr] at hf
    rw [if_neg (by omega), if_neg, if_neg] at hf
    · simp at hf
    · unfold FUTURE_ROUND_GAP U64 at *; omega
    · unfold FUTURE_HEIGHT_GAP U64 at *; omega
  · rw [wp_bind]
    refine walk_verifyAddress _ (fun ha => ⟨by simp, idle (fun _ s' => _) fun hl => ?_⟩) fun ha => ?_
    · exact absurd (by rw [hs.authority, update_contains]; simpa using hg.members _ hl) ha
    · have hin : sv.voter ∈ g.list.map Node.address := by
        rw [hs.authority, update_contains] at ha
        simpa using ha
      have hgv : GoodV g sv := ⟨hin, fun hl => by obtain ⟨ty, hty⟩ := hv hl; rw [hty]⟩
      split
      · rename_i qc hqc
        refine idle (fun _ s' => _) fun hl => ?_
        obtain ⟨ty, hty⟩ := hv hl
        rw [hty] at hqc ⊢
        exact .inr ⟨qc, hqc⟩
      · have hi0 := insertVote_inv0 hs.toInv0 (sv := sv) (fun _ _ => ⟨hgv, hP⟩)
        have hgrow := insertVote_grow (g := g) (s := s) (sv := sv)
        have htk : g.live sv.voter = true → voted g { s with votes := s.votes.insertVote sv.vote.blockHash sv sv.voter } sv.vote.voteType sv.voter = true := by
          intro hl
          obtain ⟨ty, hty⟩ := hv hl
          have := insertVote_taken hs.toInv0 hty hl
          rw [hty] at this ⊢
          exact this
        have hpost : Post g P (fun _ => False) s [] { s with votes := s.votes.insertVote sv.vote.blockHash sv sv.voter } :=
          .silent hgrow (fun ty => (insertVote_hasQc ty).1) id (by simp)
        rw [wp_bind, wp_modify, wp_ite]
        refine ⟨fun hh => ?_, fun hh => ?_⟩
        · have hsame : Same g s { s with votes := s.votes.insertVote sv.vote.blockHash sv sv.voter } :=
            ⟨rfl, rfl, rfl, rfl, rfl, .insertVote _ (fun hc => by have := hs.height; omega), rfl, rfl, rfl, fun _ _ h => h, id⟩
          exact ⟨[], by simp, hsame.inv hs hs.low hs.near, hpost, ⟨rfl, rfl, rfl⟩, fun hl => .inl (htk hl)⟩
        · have := ok_tail (P := P) hg he (s := { s with votes := s.votes.insertVote sv.vote.blockHash sv sv.voter }) (l := l) hi0 hr (ty := sv.vote.voteType)
            (by
              intro ty' hne hQ
              rw [insertVote_hasQc]
              refine hs.poolQ ty' ((quorum_congr fun a => ?_).1 hQ)
              unfold voted
              dsimp only
              rw [poolD_insertVote, if_neg (fun hc => hne hc.2.2.symm)])
            (s0 := s) rfl (k := fun qc => (qc.round, qc.height)) (fun qc h1 h2 => by simp [h1, h2])
          refine OkW.mono this ?_
          rintro ⟨s', l'⟩ ⟨eff, h1, h2, h3, h4⟩
          refine ⟨eff, h1, h2, ?_, h4, fun hl => .inl (h3.grow.vote _ _ (htk hl))⟩
          have := hpost.trans h3 h2.toInv0
          exact this.weaken (by simp)

/-- The result of the check of the block arrives. -/
theorem ok_resp {s : State T} {l : List (Effect T)} (hs : Inv g P s) (hr : s.round = g.round) (hk : Known g s) :
    OkW (handleResp ⟨g.height, g.round, g.hash, true⟩) e ⟨s, l⟩
      (Res g P (fun _ => False) s l (fun _ s' => Keep s s' ∧ Full g s')) := by
  have hF : Full g { s with isFullTransaction := s.isFullTransaction.insert g.hash true } := by
    unfold Full State.tryGetFullTxs
    simp [hg.hash]
  have hinv : Inv g P { s with isFullTransaction := s.isFullTransaction.insert g.hash true } :=
    { hs with full := fun _ => hk }
  have hgrow : Grow g s { s with isFullTransaction := s.isFullTransaction.insert g.hash true } :=
    { Grow.refl s with full := fun _ => hF, height := rfl, address := rfl, chokes := fun _ _ h => h, few := id, round := Nat.le_refl _ }
  have hq : ∀ ty, HasQc g { s with isFullTransaction := s.isFullTransaction.insert g.hash true } ty ↔ HasQc g s ty := fun _ => Iff.rfl
  unfold OkW handleResp
  rw [wp_bind, wp_get]
  dsimp only
  rw [if_neg (fun h => h hs.height.symm), wp_bind, wp_modify]
  split
  · rename_i qc hqc
    rw [hs.height] at hqc
    obtain ⟨⟨q1, q2, q3, q4⟩, hh⟩ := hs.byC qc hqc
    rw [wp_emit]
    refine ⟨[.trigger (tQ g .precommit)], by simp [tQ, VoteType.toTrigger, q1, q2, q4], hinv,
      ⟨hgrow, ?_, by simp, by simp, by simp, by simp, by simp, ?_, ?_, fun ty h => .inl h⟩, ⟨rfl, rfl, rfl⟩, hF⟩
    · intro t ht
      simp only [trigsOf, List.filterMap_cons, List.filterMap_nil, List.mem_singleton] at ht
      subst ht
      exact ⟨hk, fun h => (hs.calm h).1 _ hh, .inr ⟨_, rfl, hh⟩⟩
    · intro _ _; exact .inr (.inr hh)
    · intro _ _; exact .inr (by simp [trigsOf])
  · rename_i hnone
    rw [hs.height] at hnone
    have hnc : ¬ HasQc g s .precommit := by
      intro h
      obtain ⟨q, h1, _⟩ := hs.byV _ h
      rw [hnone] at h1; cases h1
    split
    · rename_i qc hqc
      rw [hs.height] at hqc
      obtain ⟨q1, q4, q5⟩ := hs.byP qc hqc
      rw [wp_ite]
      refine ⟨fun hrr => ?_, fun hrr => ?_⟩
      · have q2 : qc.round = g.round := hrr.trans hr
        rw [wp_emit]
        refine ⟨[.trigger (tQ g .prevote)], by simp [tQ, VoteType.toTrigger, q1, q2, q4], hinv,
          ⟨hgrow, ?_, by simp, by simp, by simp, by simp, by simp, ?_, ?_, fun ty h => .inl h⟩, ⟨rfl, rfl, rfl⟩, hF⟩
        · intro t ht
          simp only [trigsOf, List.filterMap_cons, List.filterMap_nil, List.mem_singleton] at ht
          subst ht
          exact ⟨hk, fun h => (hs.calm h).1 _ (q5 q2), .inr ⟨_, rfl, q5 q2⟩⟩
        · intro _ _; exact .inr (.inl (by simp [trigsOf]))
        · intro h _; exact absurd h hnc
      · have hnv : ¬ HasQc g s .prevote := by
          intro h
          obtain ⟨q, h1, h2⟩ := hs.byV _ h
          rw [hqc] at h1; cases h1
          exact hrr (h2.2.1.trans hr.symm)
        exact ⟨[], by simp, hinv, ⟨hgrow, by simp [trigsOf], by simp, by simp, by simp, by simp, by simp, fun h => absurd h hnv, fun h => absurd h hnc, fun ty h => .inl h⟩, ⟨rfl, rfl, rfl⟩, hF⟩
    · rename_i hnone'
      rw [hs.height] at hnone'
      have hnv : ¬ HasQc g s .prevote := by
        intro h
        obtain ⟨q, h1, h2⟩ := hs.byV _ h
        rw [hnone'] at h1; cases h1
      exact ⟨[], by simp, hinv, ⟨hgrow, by simp [trigsOf], by simp, by simp, by simp, by simp, by simp, fun h => absurd h hnv, fun h => absurd h hnc, fun ty h => .inl h⟩, ⟨rfl, rfl, rfl⟩, hF⟩

end

end Overlord.Good
