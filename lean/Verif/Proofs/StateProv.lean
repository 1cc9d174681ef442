import Verif.Proofs.StateInv

/-! Where certificates, proposals, contents and check results of a node come from. -/

set_option linter.unusedSimpArgs false
set_option linter.unusedVariables false
set_option linter.unusedSectionVars false

namespace Overlord
open M Spec

variable {T : Type} [ContentCodec T] [DecidableEq T]

theorem trace_snoc (s0 : State T) (ins : List (Env T × Input T)) (e : Env T) (i : Input T) {s : State T}
    (h : s0.after ins = some s) : s0.trace (ins ++ [(e, i)]) = s0.trace ins ++ effects e i s := by
  induction ins generalizing s0 with
  | nil =>
    simp only [State.after, Option.some.injEq] at h
    subst h
    simp only [List.nil_append, State.trace, effects]
    split <;> simp_all
  | cons a ins ih =>
    obtain ⟨e', i'⟩ := a
    simp only [List.cons_append, State.trace, State.after] at h ⊢
    split at h
    · rename_i h1; simp only [h1]; rw [ih _ h, List.append_assoc]
    · cases h

/-- Induction over histories with their effects. -/
theorem trace_inv {s0 : State T} {P : List (Env T × Input T) → List (Effect T) → State T → Prop}
    (h0 : P [] [] s0)
    (hi : ∀ ins tr s e i, P ins tr s → P (ins ++ [(e, i)]) tr s)
    (hm : ∀ ins tr s e i eff s', P (ins ++ [(e, i)]) tr s → Micro e i s eff s' →
      P (ins ++ [(e, i)]) (tr ++ eff) s')
    {ins : List (Env T × Input T)} {s : State T} (h : s0.after ins = some s) : P ins (s0.trace ins) s := by
  induction ins using List.reverseRecOn generalizing s with
  | nil => simp only [State.after, Option.some.injEq] at h; exact h ▸ h0
  | append_singleton ins a ih =>
    obtain ⟨e, i⟩ := a
    rw [after_snoc] at h
    cases h1 : s0.after ins with
    | none => rw [h1] at h; simp at h
    | some s1 =>
      rw [h1] at h
      simp only [Option.bind_some] at h
      rw [after_one _ _ _ _ h, trace_snoc _ _ _ _ h1]
      have := arm_inv (e := e) (i := i) (s := s1)
        (P := fun w => P (ins ++ [(e, i)]) (s0.trace ins ++ w.log) w.st)
        (by simpa using hi _ _ _ e i (ih h1)) (by
          intro w eff s' hp hmm
          rw [← List.append_assoc]
          exact hm _ _ _ _ _ _ _ hp hmm)
      exact this

/-- The same, inside the arm that handles the next input: where an effect comes from. -/
theorem trace_effect {s0 : State T} {P : List (Env T × Input T) → List (Effect T) → State T → Prop}
    (h0 : P [] [] s0)
    (hi : ∀ ins tr s e i, P ins tr s → P (ins ++ [(e, i)]) tr s)
    (hm : ∀ ins tr s e i eff s', P (ins ++ [(e, i)]) tr s → Micro e i s eff s' →
      P (ins ++ [(e, i)]) (tr ++ eff) s')
    {ins : List (Env T × Input T)} {s : State T} (h : s0.after ins = some s) {e : Env T} {i : Input T}
    {a b : List (Effect T)} {x : Effect T} (hx : effects e i s = a ++ x :: b) :
    ∃ s1 pre eff s2 u v, P (ins ++ [(e, i)]) (s0.trace ins ++ pre) s1 ∧ Micro e i s1 eff s2 ∧ eff = u ++ x :: v ∧
      a = pre ++ u := by
  have := arm_inv (e := e) (i := i) (s := s) (P := fun w => P (ins ++ [(e, i)]) (s0.trace ins ++ w.log) w.st ∧
    ∀ a x b, w.log = a ++ x :: b → ∃ s1 pre eff s2 u v, P (ins ++ [(e, i)]) (s0.trace ins ++ pre) s1 ∧
      Micro e i s1 eff s2 ∧ eff = u ++ x :: v ∧ a = pre ++ u)
    ⟨by simpa using hi _ _ _ e i (trace_inv h0 hi hm h), by simp⟩ (by
      rintro w eff s' ⟨hp, hl⟩ hmm
      refine ⟨by rw [← List.append_assoc]; exact hm _ _ _ _ _ _ _ hp hmm, fun a x b he => ?_⟩
      dsimp only at he
      rcases List.append_eq_append_iff.1 he with ⟨c, hc1, hc2⟩ | ⟨c, hc1, hc2⟩
      · exact ⟨w.st, w.log, eff, s', c, b, hp, hmm, hc2, hc1⟩
      · cases c with
        | nil =>
          simp only [List.nil_append, List.append_nil] at hc1 hc2
          exact ⟨w.st, w.log, eff, s', [], b, hp, hmm, by simpa using hc2.symm, by simp [hc1]⟩
        | cons z c =>
          simp only [List.cons_append, List.cons.injEq] at hc2
          obtain ⟨rfl, rfl⟩ := hc2
          exact hl a x c hc1)
  exact this.2 a x b hx

/-- Everything the node holds has a source. -/
structure Prov (ins : List (Env T × Input T)) (tr : List (Effect T)) (s : State T) : Prop where
  votes : VotesOk s.votes
  qcId : ∀ h r ty qc, qcId s.votes h r ty = some qc → CertificateFrom ins tr qc
  qcHash : ∀ h hash ty qc, s.votes.getQcByHash h hash ty = some qc → CertificateFrom ins tr qc
  proposals : ∀ h r sp, s.proposals.get h r = .ok sp → ∃ e, (e, .verified (.signedProposal sp)) ∈ ins
  content : ∀ hash c, s.hashWithBlock.get? hash = some c → ContentFrom ins tr hash c
  checked : ∀ hash b, s.isFullTransaction.get? hash = some b →
    ∃ e r, (e, .resp r) ∈ ins ∧ r.blockHash = hash ∧ r.isPass = b

theorem certFrom_mono {ins ins' : List (Env T × Input T)} {tr tr' : List (Effect T)} {qc : AggregatedVote}
    (h : CertificateFrom ins tr qc) (h1 : ∀ x ∈ ins, x ∈ ins') (h2 : ∀ x ∈ tr, x ∈ tr') :
    CertificateFrom ins' tr' qc := by
  rcases h with ⟨e, h⟩ | ⟨e, sc, h, h'⟩ | ⟨e, b, w, l, h, h'⟩ | h
  · exact .inl ⟨e, h1 _ h⟩
  · exact .inr (.inl ⟨e, sc, h1 _ h, h'⟩)
  · exact .inr (.inr (.inl ⟨e, b, w, l, h1 _ h, h'⟩))
  · exact .inr (.inr (.inr (h2 _ h)))

theorem contFrom_mono {ins ins' : List (Env T × Input T)} {tr tr' : List (Effect T)} {hash : Hash} {c : T}
    (h : ContentFrom ins tr hash c) (h1 : ∀ x ∈ ins, x ∈ ins') (h2 : ∀ x ∈ tr, x ∈ tr') :
    ContentFrom ins' tr' hash c := by
  rcases h with ⟨e, sp, h, h'⟩ | ⟨k, h⟩ | ⟨e, b, w, l, h, h'⟩
  · exact .inl ⟨e, sp, h1 _ h, h'⟩
  · exact .inr (.inl ⟨k, h2 _ h⟩)
  · exact .inr (.inr ⟨e, b, w, l, h1 _ h, h'⟩)

theorem Prov.mono {ins ins' : List (Env T × Input T)} {tr tr' : List (Effect T)} {s : State T}
    (h : Prov ins tr s) (h1 : ∀ x ∈ ins, x ∈ ins') (h2 : ∀ x ∈ tr, x ∈ tr') : Prov ins' tr' s :=
  ⟨h.votes, fun _ _ _ _ hq => certFrom_mono (h.qcId _ _ _ _ hq) h1 h2, fun _ _ _ _ hq => certFrom_mono (h.qcHash _ _ _ _ hq) h1 h2,
   fun _ _ _ hq => let ⟨e, he⟩ := h.proposals _ _ _ hq; ⟨e, h1 _ he⟩,
   fun _ _ hq => contFrom_mono (h.content _ _ hq) h1 h2,
   fun _ _ hq => let ⟨e, r, he, h'⟩ := h.checked _ _ hq; ⟨e, r, h1 _ he, h'⟩⟩

theorem Prov.setQc {ins : List (Env T × Input T)} {tr : List (Effect T)} {s : State T} (h : Prov ins tr s)
    {qc : AggregatedVote} (hq : CertificateFrom ins tr qc) : Prov ins tr { s with votes := s.votes.setQc qc } := by
  refine ⟨h.votes.setQc qc, fun hh r ty q hq' => ?_, fun hh r ty q hq' => ?_, h.proposals, h.content, h.checked⟩
  · rw [qcId_setQc] at hq'
    split at hq'
    · simp only [Option.some.injEq] at hq'; exact hq' ▸ hq
    · exact h.qcId _ _ _ _ hq'
  · rw [getQcByHash_setQc] at hq'
    split at hq'
    · simp only [Option.some.injEq] at hq'; exact hq' ▸ hq
    · exact h.qcHash _ _ _ _ hq'

theorem Prov.insertVote {ins : List (Env T × Input T)} {tr : List (Effect T)} {s : State T} (h : Prov ins tr s)
    (hash : Hash) (sv : SignedVote) (a : Address) :
    Prov ins tr { s with votes := s.votes.insertVote hash sv a } := by
  refine ⟨h.votes.insertVote .., fun hh r ty q hq' => ?_, fun hh r ty q hq' => ?_, h.proposals, h.content, h.checked⟩
  · rw [qcId_insertVote] at hq'; exact h.qcId _ _ _ _ hq'
  · rw [getQcByHash_insertVote] at hq'; exact h.qcHash _ _ _ _ hq'

theorem Prov.insertBlock {ins : List (Env T × Input T)} {tr : List (Effect T)} {s : State T} (h : Prov ins tr s)
    {hash : Hash} {c : T} (hc : ContentFrom ins tr hash c) :
    Prov ins tr { s with hashWithBlock := s.hashWithBlock.insert hash c } := by
  refine ⟨h.votes, h.qcId, h.qcHash, h.proposals, fun k c' hg => ?_, h.checked⟩
  dsimp only at hg
  rw [AMap.get?_insert] at hg
  split at hg
  · rename_i hk; subst hk; simp only [Option.some.injEq] at hg; exact hg ▸ hc
  · exact h.content _ _ hg

theorem proposals_insert_get {c ps : ProposalCollector T} {h r : Nat} {sp : SignedProposal T}
    (hi : c.insert h r sp = .ok ps) (h' r' : Nat) (sp' : SignedProposal T) (hg : ps.get h' r' = .ok sp') :
    c.get h' r' = .ok sp' ∨ (h' = h ∧ r' = r ∧ sp' = sp) := by
  unfold ProposalCollector.insert at hi
  dsimp only at hi
  split at hi
  · split at hi
    · simp only [Except.ok.injEq] at hi; subst hi; exact .inl hg
    · cases hi
  · rename_i hn
    simp only [Except.ok.injEq] at hi
    subst hi
    unfold ProposalCollector.get at hg ⊢
    rw [AMap.get?_insert] at hg
    by_cases h1 : h = h'
    · subst h1
      simp only [if_true, Option.bind_some] at hg
      rw [AMap.get?_insert] at hg
      by_cases h2 : r = r'
      · subst h2
        simp only [if_true, Except.ok.injEq] at hg
        exact .inr ⟨rfl, rfl, hg.symm⟩
      · simp only [h2, if_false] at hg
        left
        cases h3 : AMap.get? c h with
        | none => simp [h3, AMap.get?] at hg
        | some rc => simpa [h3] using hg
    · simp only [h1, if_false] at hg
      exact .inl hg

theorem Prov.adopted {ins : List (Env T × Input T)} {tr : List (Effect T)} {s : State T} (h : Prov ins tr s)
    (sh : Shuffle) (status : Status) : Prov ins tr (s.adopted sh status) := by
  refine ⟨h.votes.adopted _, fun hh r ty q hq => ?_, fun hh hash ty q hq => ?_, fun hh r sp hp => ?_,
    fun hash c hg => ?_, h.checked⟩
  · apply h.qcId hh r ty
    unfold Overlord.qcId State.adopted at hq
    dsimp only at hq
    rw [get?_adopted_votes] at hq
    unfold Overlord.qcId
    split at hq
    · simp at hq
    · split at hq
      · exact hq
      · simp at hq
  · apply h.qcHash hh hash ty
    unfold VoteCollector.getQcByHash State.adopted at hq
    dsimp only at hq
    rw [get?_adopted_votes] at hq
    unfold VoteCollector.getQcByHash
    split at hq
    · simp at hq
    · split at hq
      · exact hq
      · simp at hq
  · apply h.proposals hh r
    unfold ProposalCollector.get State.adopted at hp
    dsimp only at hp
    rw [get?_adopted_proposals] at hp
    unfold ProposalCollector.get
    split at hp
    · rename_i h1; split at h1
      · simp at h1
      · split at h1
        · rw [h1]; exact hp
        · simp at h1
    · cases hp
  · unfold State.adopted at hg
    simp [AMap.get?] at hg

theorem prov_micro {ins : List (Env T × Input T)} {tr : List (Effect T)} {s : State T} {e : Env T} {i : Input T}
    {eff : List (Effect T)} {s' : State T} (h : Prov (ins ++ [(e, i)]) tr s) (hm : Micro e i s eff s') :
    Prov (ins ++ [(e, i)]) (tr ++ eff) s' := by
  have hin : ∀ {j : Input T}, i = j → (e, j) ∈ ins ++ [(e, i)] := fun hj => by simp [hj]
  have h' : Prov (ins ++ [(e, i)]) (tr ++ eff) s := h.mono (fun _ h => h) (fun _ h => by simp [h])
  cases hm with
  | recvQc qc hi =>
    refine h'.setQc ?_
    rcases hi with hi | ⟨sc, hi, _, _, hf⟩
    · exact .inl ⟨e, hin hi⟩
    · exact .inr (.inl ⟨e, sc, hin hi, hf⟩)
  | genQc => exact h'.setQc (.inr (.inr (.inr (by simp))))
  | recvVote => exact h'.insertVote ..
  | castVote =>
    cases hl : s.isLeader with
    | true => simpa [hl] using h'.insertVote ..
    | false =>
      simp only [hl, Bool.false_eq_true, if_false] at h' ⊢
      exact ⟨h'.1, h'.2, h'.3, h'.4, h'.5, h'.6⟩
  | adopt => exact h'.adopted _ _
  | restoreLock w b lock hi hl hd hk =>
    exact (h'.setQc (.inr (.inr (.inl ⟨e, b, w, lock, hin hi, hl, hd, hk, rfl⟩)))).insertBlock
      (.inr (.inr ⟨e, b, w, lock, hin hi, hl, hd, hk, rfl, rfl⟩))
  | checked r hi hh =>
    refine ⟨h'.votes, h'.qcId, h'.qcHash, h'.proposals, h'.content, fun hash b hg => ?_⟩
    dsimp only at hg
    rw [AMap.get?_insert] at hg
    split at hg
    · rename_i hk
      simp only [Option.some.injEq] at hg
      exact ⟨e, r, hin hi, hk, hg⟩
    · exact h'.checked _ _ hg
  | storeProposal sp ps hi _ _ _ _ hs =>
    refine ⟨h'.votes, h'.qcId, h'.qcHash, fun hh r sp' hg => ?_, h'.content, h'.checked⟩
    rcases proposals_insert_get hs _ _ _ hg with h1 | ⟨_, _, rfl⟩
    · exact h'.proposals _ _ _ h1
    · rcases hi with hi | ⟨_, hi⟩
      · exact ⟨e, hin hi⟩
      · exact h'.proposals _ _ _ hi
  | storeBlock sp hi _ _ =>
    refine h'.insertBlock (.inl ?_)
    rcases hi with hi | ⟨_, hi⟩
    · exact ⟨e, sp, hin hi, rfl, rfl⟩
    · obtain ⟨e', he⟩ := h'.proposals _ _ _ hi
      exact ⟨e', sp, he, rfl, rfl⟩
  | acceptProposal sp ps hi _ _ hh hr _ hs =>
    refine ⟨h'.votes, h'.qcId, h'.qcHash, fun hh' r' sp' hg => ?_, h'.content, h'.checked⟩
    rcases proposals_insert_get hs _ _ _ hg with h1 | ⟨_, _, rfl⟩
    · exact h'.proposals _ _ _ h1
    · rcases hi with hi | ⟨_, hi⟩
      · exact ⟨e, hin hi⟩
      · exact h'.proposals _ _ _ hi
  | ownBlock hash block hi hn hb => exact h'.insertBlock (.inr (.inl ⟨s.height, by simp⟩))
  | _ => exact ⟨h'.1, h'.2, h'.3, h'.4, h'.5, h'.6⟩

/-- Every reachable node holds only what has a source. -/
theorem prov_after {s0 : State T} (h0 : Prov [] [] s0) {ins : List (Env T × Input T)} {s : State T}
    (h : s0.after ins = some s) : Prov ins (s0.trace ins) s :=
  trace_inv h0 (fun _ _ _ _ _ h => h.mono (fun _ hx => by simp [hx]) (fun _ h => h))
    (fun _ _ _ _ _ _ _ h hm => prov_micro h hm) h

/-- … also in the middle of the handling of the next input. -/
theorem prov_effect {s0 : State T} (h0 : Prov [] [] s0) {ins : List (Env T × Input T)} {s : State T}
    (h : s0.after ins = some s) {e : Env T} {i : Input T}
    {a b : List (Effect T)} {x : Effect T} (hx : effects e i s = a ++ x :: b) :
    ∃ s1 pre eff s2 u v, Prov (ins ++ [(e, i)]) (s0.trace ins ++ pre) s1 ∧ Micro e i s1 eff s2 ∧
      eff = u ++ x :: v ∧ a = pre ++ u :=
  trace_effect h0 (fun _ _ _ _ _ h => h.mono (fun _ hx => by simp [hx]) (fun _ h => h))
    (fun _ _ _ _ _ _ _ h hm => prov_micro h hm) h hx

end Overlord
