import Verif.Proofs.ReadyNode

/-!
What an order refers to is stored when the State takes it up (used for C53): the handling of one input and a start.
-/

set_option linter.unusedSimpArgs false
set_option linter.unusedVariables false
set_option linter.unusedSectionVars false
set_option linter.unnecessarySeqFocus false

namespace Overlord
open M Spec

variable {T : Type} [ContentCodec T] [DecidableEq T]

namespace Rdy

theorem RReady.keeps {f : Hash → Nat × T} {s s' : State T} {r : VerifyResp} (k : Keeps s s') (h : RReady f s r) : RReady f s' r :=
  ⟨h.1.keeps k, h.2⟩

theorem arm_ready {f : Hash → Nat × T} {e : Env T} {i : Input T} {s : State T} (hi : i ≠ .start)
    (h : StReady f s) (hr : ∀ r, i = .resp r → RReady f s r) :
    StReady f (runArm i e ⟨s, []⟩).2.st ∧ Keeps s (runArm i e ⟨s, []⟩).2.st ∧
      ∀ x ∈ (runArm i e ⟨s, []⟩).2.log, EffReady f (runArm i e ⟨s, []⟩).2.st x := by
  refine arm_inv (e := e) (i := i) (s := s) (P := fun w => StReady f w.st ∧ Keeps s w.st ∧ ∀ x ∈ w.log, EffReady f w.st x)
    ⟨h, .refl _, by simp⟩ ?_
  rintro w eff s' ⟨h1, h2, h3⟩ hm
  have hk := keeps_micro hi hm
  obtain ⟨g1, g2⟩ := micro_ready hi h1 (fun r e => (hr r e).keeps h2) hm
  refine ⟨g1, h2.trans hk, fun x hx => ?_⟩
  rcases List.mem_append.1 hx with hx | hx
  · exact (h3 x hx).keeps hk
  · exact g2 x hx

/-- Whoever announces a proposal has it checked. -/
theorem arm_paired {e : Env T} {i : Input T} {s : State T} :
    ∀ t, .trigger t ∈ (runArm i e ⟨s, []⟩).2.log → t.triggerType = .proposal →
      ∃ r b, .spawnCheck t.height r t.hash b ∈ (runArm i e ⟨s, []⟩).2.log := by
  refine arm_inv (e := e) (i := i) (s := s) (P := fun w => ∀ t, .trigger t ∈ w.log → t.triggerType = .proposal →
    ∃ r b, .spawnCheck t.height r t.hash b ∈ w.log) (by simp) ?_
  intro w eff s' h hm t ht0 hty
  rcases List.mem_append.1 ht0 with ht | ht <;> clear ht0
  · obtain ⟨r, b, hb⟩ := h t ht hty
    exact ⟨r, b, List.mem_append_left _ hb⟩
  · suffices hs : ∃ r b, .spawnCheck t.height r t.hash b ∈ eff from
      let ⟨r, b, hb⟩ := hs; ⟨r, b, List.mem_append_right _ hb⟩
    cases hm with
    | acceptProposal sp ps hi hc hp hh hr hb hs =>
      simp only [List.mem_cons, Effect.trigger.injEq, List.not_mem_nil, or_false, reduceCtorEq] at ht
      subst ht
      refine ⟨w.st.round, sp.proposal.content, ?_⟩
      simp only [List.mem_cons, reduceCtorEq, false_or, List.not_mem_nil, or_false, stTrigger, Effect.spawnCheck.injEq]
      exact ⟨hh, trivial, trivial, trivial⟩
    | propose sp r lr lp f hi =>
      simp only [List.mem_cons, Effect.trigger.injEq, List.not_mem_nil, or_false, reduceCtorEq, false_or] at ht
      subst ht
      exact ⟨w.st.round, sp.proposal.content, by simp [stTrigger]⟩
    | trigQcId r ty qc =>
      simp only [List.mem_singleton, Effect.trigger.injEq] at ht
      subst ht; cases hv : qc.voteType <;> simp [stTrigger, VoteType.toTrigger, hv] at hty
    | trigQcHash h ty qc =>
      simp only [List.mem_singleton, Effect.trigger.injEq] at ht
      subst ht; cases ty <;> simp [stTrigger, VoteType.toTrigger] at hty
    | enterRound => split at ht <;> simp at ht
    | castVote => split at ht <;> simp at ht
    | _ =>
      exfalso
      (simp only [List.cons_append, List.mem_cons, List.mem_append, List.mem_map, List.not_mem_nil, or_false, reduceCtorEq, false_or,
        and_false, exists_false, Effect.trigger.injEq] at ht) <;>
      (subst ht; simp [stTrigger, walTrig] at hty)

theorem StReady.new {f : Hash → Nat × T} (addr : Address) (p : StartParams) :
    StReady f (State.new addr p.initHeight p.interval p.list : State T) :=
  ⟨fun x b h => by simp [State.new, AMap.get?] at h, VLink.new, Store.new ..⟩

theorem start_stReady {f : Hash → Nat × T} {e : Env T} {addr : Address} {p : StartParams} :
    StReady f (runArm .start e ⟨(State.new addr p.initHeight p.interval p.list : State T), []⟩).2.st := by
  have h0 : StReady f (State.new addr p.initHeight p.interval p.list : State T) := .new ..
  have := arm_state_inv (e := e) (i := .start) (s := (State.new addr p.initHeight p.interval p.list : State T))
    (P := fun s => VLink s.votes ∧ Filed s ∧ s.isFullTransaction = []) ⟨h0.link, h0.filed, rfl⟩ (by
      rintro s eff s' ⟨h1, h2, h3⟩ hm
      refine ⟨h1.micro hm, h2.micro hm, ?_⟩
      cases hm with
      | checked r hi => cases hi
      | _ => exact h3)
  exact ⟨fun x b h => by rw [show (runArm .start e ⟨(State.new addr p.initHeight p.interval p.list : State T), []⟩).2.st.isFullTransaction = [] from this.2.2] at h; simp [AMap.get?] at h, this.1, this.2.1⟩

theorem tr_other {f : Hash → Nat × T} {B : Certs} {s : State T} {t : SMRTrigger} (h : TReady f s t) (h1 : t.triggerType ≠ .proposal)
    (h2 : t.triggerType ≠ .prevoteQC) (h3 : t.triggerType ≠ .precommitQC) (h4 : t.triggerType ≠ .walInfo) : TR f B s t :=
  ⟨h, trigCert_other h1 h2 h3, fun _ g => by rcases g with g | g | g <;> contradiction, fun g => absurd g h4⟩

theorem start_ready {f : Hash → Nat × T} {B : Certs} {e : Env T} {addr : Address} {p : StartParams}
    (hw : (p.list.map Node.address).contains addr = true → ∀ b (rec : WalInfo T), e.walLoad = some (some b) → decWalInfo b = .ok rec →
      RecGen B rec ∧ RecFits f (fun _ => True) rec) :
    ∀ t, .trigger t ∈ (runArm .start e ⟨(State.new addr p.initHeight p.interval p.list : State T), []⟩).2.log →
      TR f B (runArm .start e ⟨(State.new addr p.initHeight p.interval p.list : State T), []⟩).2.st t := by
  have hpow : (State.new addr p.initHeight p.interval p.list : State T).consensusPower = (p.list.map Node.address).contains addr := new_power ..
  have o := start_out e (State.new addr p.initHeight p.interval p.list : State T)
  generalize (State.new addr p.initHeight p.interval p.list : State T) = s at *
  generalize (runArm .start e ⟨s, []⟩).2 = w at *
  -- the trigger with the record
  have walTR : ∀ (rec : WalInfo T) (s1 : State T), s1.height = rec.height → RecGen B rec → RecFits f (fun _ => True) rec → rec.step ≠ .commit →
      (∀ l, rec.lock = some l → HasQc s1 .prevote l.lockRound ∧ Known s1 l.lockVotes.blockHash) → TR f B s1 (walTrig rec.intoSmrBase) := by
    intro rec s1 e1 h1 h2 h3 h4
    have ref : ∀ b l, (walTrig rec.intoSmrBase).walInfo = some b → b.polc = some l → b.height = rec.height ∧
        LockRef f B s1 b.height l.round l.hash := by
      intro b l hb hl
      simp only [walTrig, Option.some.injEq] at hb
      subst hb
      obtain ⟨lk, e2, rfl⟩ := Option.map_eq_some_iff.1 hl
      obtain ⟨k1, k2, k3, _⟩ := h1 lk e2
      obtain ⟨k4, k5⟩ := k3 h3
      refine ⟨rfl, ?_, ?_, fun _ => h4 lk e2⟩
      · unfold QcIn at k1
        rw [k4, k2, k5] at k1
        exact k1
      · rw [show lk.toLock.hash = lk.lockVotes.blockHash from rfl, (h2 lk e2).1]
        rfl
    refine ⟨⟨?_, by simp [walTrig, stTrigger], by simp [walTrig, stTrigger], by simp [walTrig, stTrigger], by simp [walTrig, stTrigger], ?_⟩,
      trigCert_other (by simp [walTrig, stTrigger]) (by simp [walTrig, stTrigger]) (by simp [walTrig, stTrigger]), by simp [walTrig, stTrigger],
      fun _ b l hb hl => (ref b l hb hl).2⟩
    · exact Nat.le_of_eq e1.symm
    · intro _ b hb
      have : b.height = rec.height := by
        simp only [walTrig, Option.some.injEq] at hb; subst hb; rfl
      refine ⟨by omega, fun e l hl => ?_⟩
      obtain ⟨_, _, _, g⟩ := ref b l hb hl
      exact g e
  have rest : ∀ (rec : WalInfo T) q, RecGen B rec → rec.step ≠ .commit → ∀ l, rec.lock = some l →
      HasQc (s.restored rec q) .prevote l.lockRound ∧ Known (s.restored rec q) l.lockVotes.blockHash := by
    intro rec q h1 h3 l hl
    obtain ⟨k1, k2, k3, _⟩ := h1 l hl
    obtain ⟨k4, k5⟩ := k3 h3
    unfold HasQc Known State.restored
    rw [hl]
    dsimp only
    refine ⟨⟨l.lockVotes, ?_⟩, ⟨l.content, by rw [AMap.get?_insert, if_pos rfl]⟩⟩
    rw [qcId_setQc, if_pos ⟨k2, k5, k4⟩]
  cases o with
  | idle hw' _ => subst hw'; intro t ht; cases ht
  | fresh hp _ _ hw' =>
    subst hw'
    intro t ht
    simp only [List.mem_singleton, Effect.trigger.injEq] at ht
    subst ht
    refine ⟨⟨Nat.le_refl _, by simp [walTrig, stTrigger], by simp [walTrig, stTrigger], by simp [walTrig, stTrigger], by simp [walTrig, stTrigger], ?_⟩,
      trigCert_other (by simp [walTrig, stTrigger]) (by simp [walTrig, stTrigger]) (by simp [walTrig, stTrigger]), by simp [walTrig, stTrigger], ?_⟩
    · intro _ b hb
      simp only [walTrig, Option.some.injEq] at hb
      subst hb
      exact ⟨Nat.le_refl _, fun _ l hl => by cases hl⟩
    · intro _ b l hb hl
      simp only [walTrig, Option.some.injEq] at hb
      subst hb; cases hl
  | noLeader b rec x hp hl hd hx hw' => subst hw'; intro t ht; cases ht
  | noLock b rec q hp hl hd hx hst hk hw' => subst hw'; intro t ht; cases ht
  | resume b rec q hp hl hd hx hst hk hw' =>
    obtain ⟨r1, r2⟩ := hw (by rw [← hpow]; exact hp) b rec hl hd
    subst hw'
    intro t ht
    simp only [List.mem_singleton, Effect.trigger.injEq] at ht
    subst ht
    exact walTR rec _ (restored_pos ..).1 r1 r2 hst (rest rec q r1 hst)
  | commit b rec q lock hp hl hd hx hst hk o =>
    intro t ht
    cases o with
    | none => cases ht
    | lost => simp at ht
    | failed => simp at ht
    | stuck => simp at ht
    | done content qc st w hb hq hs' hc' hm =>
      cases hm with
      | stay => simp at ht
      | away => simp at ht
      | lost => simp at ht
      | adopt h1 h2 h3 =>
        simp at ht
        subst ht
        refine tr_other ⟨Nat.le_refl _, ?_, by simp [stTrigger], by simp [stTrigger], by simp [stTrigger], by simp [stTrigger]⟩ (by simp [stTrigger])
          (by simp [stTrigger]) (by simp [stTrigger]) (by simp [stTrigger])
        intro st' h; cases h; exact Nat.le_refl _
  | brake b rec q hp hl hd hx hst w1 o hw' =>
    obtain ⟨r1, r2⟩ := hw (by rw [← hpow]; exact hp) b rec hl hd
    have hst' : rec.step ≠ .commit := by rw [hst]; simp
    have eh : w1.st.height = (s.restored rec q).height := o.same.height
    have est : w.st = w1.st := by rcases hw' with rfl | rfl <;> rfl
    obtain ⟨k1, k2, k3, k4, k5⟩ := o.keep
    rw [est]
    intro t ht
    have : .trigger t ∈ w1.log ∨ t = walTrig rec.intoSmrBase := by
      rcases hw' with rfl | rfl
      · exact .inl ht
      · rcases List.mem_append.1 ht with hx | hx
        · exact .inl hx
        · simp at hx; exact .inr hx
    rcases this with h | rfl
    · obtain ⟨t1, t2⟩ := o.trigs t h
      obtain ⟨r, qc, t3, t4⟩ := o.choke t h
      refine tr_other ⟨by omega, by simp [t1], by simp [t1], by simp [t1], fun _ _ => ⟨r, t3, qc, t4⟩, by simp [t1]⟩ (by simp [t1])
          (by simp [t1]) (by simp [t1]) (by simp [t1])
    · refine walTR rec _ (eh.trans (restored_pos ..).1) r1 r2 hst' fun l hl => ?_
      obtain ⟨g1, g2⟩ := rest rec q r1 hst' l hl
      unfold HasQc Known at *
      rw [eh, k1, k2]
      exact ⟨g1, g2⟩

end Rdy
end Overlord
