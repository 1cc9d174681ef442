import Verif.Proofs.NodeSound

/-! The invariant of a network (used for C43, C44). -/

set_option linter.unusedSimpArgs false
set_option linter.unusedVariables false
set_option linter.unusedSectionVars false
set_option linter.unnecessarySeqFocus false

namespace Overlord
open M Spec

variable {T : Type} [ContentCodec T] [DecidableEq T]

/-- Signed votes that correct nodes have released. -/
def SentVote (correct : Address → Bool) (votes : List (Address × Vote)) (sv : SignedVote) : Prop :=
  correct sv.voter = true → (sv.voter, sv.vote) ∈ votes

theorem counts_certified (lists : Nat → List Node) (correct : Address → Bool) (votes : List (Address × Vote)) :
    Counts lists (SentVote correct votes) (Certified lists correct votes) := by
  intro ty k r h s hw hs
  unfold Certified Quorum
  have := weight_mono (lists k) (fun a => decide (a ∈ s)) (fun a => !correct a || decide ((a, (⟨k, r, ty, h⟩ : Vote)) ∈ votes)) (by
    intro n _ hn
    simp only [decide_eq_true_eq] at hn
    obtain ⟨sv, h1, h2, h3⟩ := hs _ hn
    cases hc : correct n.address with
    | false => simp
    | true =>
      have := h1 (by rw [h2]; exact hc)
      rw [h2, h3] at this
      simp [this])
  omega

/-- What is known about a network. -/
structure NetInv (lists : Nat → List Node) (correct : Address → Bool) (N : NetSys T) : Prop where
  just : JustHist lists correct N.votes
  mine : ∀ a v, (a, v) ∈ N.votes ↔ ∃ sv ∈ votesOf (N.nodes a).log, sv.vote = v
  sound : ∀ a, correct a = true → Sound lists (SentVote correct N.votes) (Certified lists correct N.votes) a (N.nodes a)

theorem netInv_new (lists : Nat → List Node) (correct : Address → Bool) : NetInv lists correct (NetSys.new : NetSys T) := by
  refine ⟨?_, ?_, fun a _ => sound_new⟩
  · intro G1 a v G2 he
    have he : ([] : List (Address × Vote)) = _ := he
    simp at he
  · intro a v
    simp [NetSys.new, NodeSys.new, NodeSys.fresh, votesOf]

theorem genuine_gen {lists : Nat → List Node} {correct : Address → Bool} {votes : List (Address × Vote)} {m : OverlordMsg T}
    (h : Genuine lists correct votes m) : MsgGen lists (SentVote correct votes) (Certified lists correct votes) m := by
  cases m with
  | signedVote sv => exact h
  | aggregatedVote qc => exact h
  | signedProposal sp => exact h
  | signedChoke sc => exact h
  | richStatus st => exact h
  | stop => trivial

/-- The log only grows. -/
theorem act_grows {addr : Address} {n n' : NodeSys T} {a : NAct T} (ha : n.act addr a = some n') : ∃ l, n'.log = n.log ++ l := by
  rcases act_log ha with ⟨h, _⟩ | ⟨i, e, cut, s, h, _⟩
  · exact ⟨[], by rw [h]; simp⟩
  · exact ⟨_, h⟩

theorem netInv_step {lists : Nat → List Node} {correct : Address → Bool} (hgl : GoodLists lists) (few : FewFaulty lists correct)
    {N N' : NetSys T} {a : Address} {x : NAct T} (h : NetInv lists correct N) (ok : correct a = true → NetStep lists correct N a x)
    (ok' : correct a = true → NoSelfUnlock lists correct N.votes (N.nodes a) x)
    (ha : N.act a x = some N') : NetInv lists correct N' := by
  unfold NetSys.act at ha
  split at ha
  · cases ha
  · rename_i n hn
    cases ha
    have hu : Uniq (Certified lists correct N.votes) := fun k r y z h1 h2 => cert_unique few h.just h1 h2
    obtain ⟨l, hl⟩ := act_grows hn
    have hdrop : n.log.drop (N.nodes a).log.length = l := by rw [hl, List.drop_left]
    rw [hdrop]
    have hsub : ∀ y ∈ N.votes, y ∈ N.votes ++ (votesOf l).map fun sv => (a, sv.vote) := fun y hy => List.mem_append_left _ hy
    have hV : ∀ v, SentVote correct N.votes v → SentVote correct (N.votes ++ (votesOf l).map fun sv => (a, sv.vote)) v :=
      fun v hv hc => hsub _ (hv hc)
    have hB : ∀ ty k r y, Certified lists correct N.votes ty k r y →
        Certified lists correct (N.votes ++ (votesOf l).map fun sv => (a, sv.vote)) ty k r y := fun _ _ _ _ hc => Certified.mono hsub hc
    have step : correct a = true → (votesOf l = [] ∨ ∃ sv, votesOf l = [sv] ∧ sv.voter = a ∧
          Justified (Certified lists correct N.votes) (Mine (N.nodes a)) sv.vote) ∧
        Sound lists (SentVote correct (N.votes ++ (votesOf l).map fun sv => (a, sv.vote)))
          (Certified lists correct (N.votes ++ (votesOf l).map fun sv => (a, sv.vote))) a n := by
      intro hc
      have o := ok hc
      have hin : InputOk lists (SentVote correct N.votes) (Certified lists correct N.votes) (N.nodes a) x := by
        cases x with
        | arm r e c =>
          cases r with
          | verified => exact fun m q hq hm => genuine_gen (o.genuine m q hq hm)
          | _ => trivial
        | smr => exact fun t q hq l lr h1 h2 h3 h4 h5 h6 h7 => ok' hc t q l lr hq h1 h2 h3 h4 h5 h6 h7
        | _ => trivial
      obtain ⟨l', hl', h1, h2⟩ := sound_step hgl hu (h.sound a hc) ⟨o.inSync, o.rounds, o.start, o.answers, o.saves, o.given⟩ hin hn
      have : l' = l := by rw [hl] at hl'; exact (List.append_cancel_left hl').symm
      subst this
      refine ⟨h1, h2 _ _ hV hB (counts_certified _ _ _) fun sv hsv hcc => ?_⟩
      rcases h1 with h1 | ⟨sv', h1, h3, _⟩
      · rw [h1] at hsv; cases hsv
      · rw [h1, List.mem_singleton] at hsv
        subst hsv
        rw [h3]
        refine List.mem_append_right _ (List.mem_map.2 ⟨sv, by rw [h1]; simp, rfl⟩)
    refine ⟨?_, ?_, ?_⟩
    · cases hc : correct a with
      | true =>
        rcases (step hc).1 with h1 | ⟨sv, h1, h2, h3⟩
        · rw [h1]; simpa using h.just
        · rw [h1]
          refine justHist_append h.just fun _ => ?_
          have : (fun v' => (a, v') ∈ N.votes) = Mine (N.nodes a) := by
            funext v'; exact propext (h.mine a v')
          rw [this]; exact h3
      | false =>
        show JustHist lists correct (N.votes ++ (votesOf l).map fun sv => (a, sv.vote))
        generalize (votesOf l) = vs
        intro G1 b v G2 he hb
        have : ∀ (vs : List SignedVote) (G : List (Address × Vote)), JustHist lists correct G →
            JustHist lists correct (G ++ vs.map fun sv => (a, sv.vote)) := by
          intro vs
          induction vs with
          | nil => intro G hG; simpa using hG
          | cons sv vs ih =>
            intro G hG
            have := ih _ (justHist_append (a := a) (v := sv.vote) hG fun hca => by rw [hc] at hca; cases hca)
            simpa using this
        exact this vs N.votes h.just G1 b v G2 he hb
    · intro b v
      simp only [List.mem_append, List.mem_map, Prod.mk.injEq]
      by_cases hb : b = a
      · subst hb
        simp only [if_true]
        rw [hl, votesOf_append]
        simp only [List.mem_append]
        rw [h.mine b v]
        constructor
        · rintro (⟨sv, h1, h2⟩ | ⟨sv, h1, _, h2⟩)
          · exact ⟨sv, .inl h1, h2⟩
          · exact ⟨sv, .inr h1, h2⟩
        · rintro ⟨sv, h1 | h1, h2⟩
          · exact .inl ⟨sv, h1, h2⟩
          · exact .inr ⟨sv, h1, trivial, h2⟩
      · simp only [if_neg hb]
        rw [h.mine b v]
        constructor
        · rintro (h1 | ⟨sv, _, h1, _⟩)
          · exact h1
          · exact absurd h1.symm hb
        · exact .inl
    · intro b hb
      by_cases hba : b = a
      · subst hba
        simp only [if_true]
        exact (step hb).2
      · simp only [if_neg hba]
        exact (h.sound b hb).mono hV hB

theorem netInv_run {lists : Nat → List Node} {correct : Address → Bool} (hgl : GoodLists lists) (few : FewFaulty lists correct) :
    ∀ (as : List (Address × NAct T)) (N N' : NetSys T), NetInv lists correct N →
      AlongNet (fun N a x => correct a = true → NetStep lists correct N a x) N as →
      AlongNet (fun N a x => correct a = true → NoSelfUnlock lists correct N.votes (N.nodes a) x) N as → N.run as = some N' → NetInv lists correct N' := by
  intro as
  induction as with
  | nil => intro N N' h _ _ hr; simp only [NetSys.run, Option.some.injEq] at hr; exact hr ▸ h
  | cons y as ih =>
    obtain ⟨a, x⟩ := y
    intro N N' h ok ok' hr
    simp only [NetSys.run] at hr
    split at hr
    · cases hr
    · rename_i N1 h1
      exact ih N1 N' (netInv_step hgl few h ok.1 ok'.1 h1) (ok.2 N1 h1) (ok'.2 N1 h1) hr

theorem alongNet_mono {p q : NetSys T → Address → NAct T → Prop} (h : ∀ N a x, p N a x → q N a x) :
    ∀ (as : List (Address × NAct T)) (N : NetSys T), AlongNet p N as → AlongNet q N as := by
  intro as
  induction as with
  | nil => intro N _; trivial
  | cons y as ih => intro N hp; exact ⟨h _ _ _ hp.1, fun N' hN => ih N' (hp.2 N' hN)⟩

theorem alongNet_and {p q r : NetSys T → Address → NAct T → Prop} (h : ∀ N a x, p N a x → q N a x → r N a x) :
    ∀ (as : List (Address × NAct T)) (N : NetSys T), AlongNet p N as → AlongNet q N as → AlongNet r N as := by
  intro as
  induction as with
  | nil => intro N _ _; trivial
  | cons y as ih => intro N hp hq; exact ⟨h _ _ _ hp.1 hq.1, fun N' hN => ih N' (hp.2 N' hN) (hq.2 N' hN)⟩

/-- What one node does in a network. -/
theorem net_steps (a : Address) : ∀ (as : List (Address × NAct T)) (N N' : NetSys T), N.run as = some N' →
    (N.nodes a).run a (stepsOf a as) = some (N'.nodes a) := by
  intro as
  induction as with
  | nil => intro N N' hr; simp only [NetSys.run, Option.some.injEq] at hr; subst hr; rfl
  | cons y as ih =>
    obtain ⟨b, x⟩ := y
    intro N N' hr
    simp only [NetSys.run] at hr
    split at hr
    · cases hr
    · rename_i N1 h1
      have := ih N1 N' hr
      unfold NetSys.act at h1
      split at h1
      · cases h1
      · rename_i n hn
        cases h1
        by_cases hb : b = a
        · subst hb
          simp only [if_true] at this
          simp [stepsOf, NodeSys.run, hn]
          exact this
        · have hb' : ¬ a = b := fun h => hb h.symm
          simp only [if_neg hb'] at this
          simp only [stepsOf, List.filterMap_cons, if_neg hb]
          exact this

theorem net_along {ok : NodeSys T → NAct T → Prop} (a : Address) : ∀ (as : List (Address × NAct T)) (N N' : NetSys T), N.run as = some N' →
    AlongNet (fun N b x => b = a → ok (N.nodes b) x) N as → Along ok a (N.nodes a) (stepsOf a as) := by
  intro as
  induction as with
  | nil => intro N N' _ _; trivial
  | cons y as ih =>
    obtain ⟨b, x⟩ := y
    intro N N' hr hk
    simp only [NetSys.run] at hr
    split at hr
    · cases hr
    · rename_i N1 h1
      have := ih N1 N' hr (hk.2 N1 h1)
      have h0 := hk.1
      unfold NetSys.act at h1
      split at h1
      · cases h1
      · rename_i n hn
        cases h1
        by_cases hb : b = a
        · subst hb
          simp only [if_true] at this
          simp only [stepsOf, List.filterMap_cons, if_true]
          refine ⟨h0 rfl, fun n' hn' => ?_⟩
          rw [hn] at hn'; cases hn'; exact this
        · have hb' : ¬ a = b := fun h => hb h.symm
          simp only [if_neg hb'] at this
          simp only [stepsOf, List.filterMap_cons, if_neg hb]
          exact this

end Overlord
