import Verif.Proofs.NodeRestart

/-!
Facts about what is in the channels of a node: a family of predicates on the State, the voting state machine and the
contents of every channel is kept by all steps, if each task keeps it.
-/

set_option linter.unusedSimpArgs false
set_option linter.unusedVariables false
set_option linter.unusedSectionVars false

namespace Overlord
open M Spec

/-- Predicates on the parts of a node. -/
structure Preds (T : Type) where
  st : State T → Prop
  smr : Smr → Prop
  trig : SMRTrigger → Prop
  ev : SMREvent → Prop
  msg : OverlordMsg T → Prop
  ver : OverlordMsg T → Authority → Prop
  chk : Nat → Nat → Hash → T → Prop
  resp : VerifyResp → Prop

variable {T : Type} [ContentCodec T] [DecidableEq T]

/-- The predicates on what the effects put into channels. -/
def Preds.eff (P : Preds T) : Effect T → Prop
  | .trigger t => P.trig t
  | .toVerified m => P.msg m
  | .spawnVerify m a => P.ver m a
  | .spawnCheck k r h b => P.chk k r h b
  | _ => True

/-- The predicates hold of a node. -/
structure Preds.Holds (P : Preds T) (n : NodeSys T) : Prop where
  st : P.st n.st
  smr : P.smr n.sys.smr
  trig : ∀ t ∈ n.sys.trigQ, P.trig t
  ev : ∀ e ∈ n.stQ, P.ev e
  msg : ∀ m ∈ n.verifiedQ, P.msg m
  ver : ∀ m a, (m, a) ∈ n.verifying → P.ver m a
  chk : ∀ k r h b, (k, r, h, b) ∈ n.checking → P.chk k r h b
  resp : ∀ r ∈ n.respQ, P.resp r

/-- What the State takes from a channel. -/
def Preds.input (P : Preds T) (x : Arm T) : Input T → Prop
  | .raw m => x = .raw m
  | .event e => x = .event ∧ P.ev e
  | .resp r => x = .resp ∧ P.resp r
  | .verified m => x = .verified ∧ P.msg m
  | .start => False

theorem Preds.Holds.mono {P Q : Preds T} {n : NodeSys T} (h : P.Holds n)
    (h1 : ∀ s, P.st s → Q.st s) (h2 : ∀ s, P.smr s → Q.smr s) (h3 : ∀ t, P.trig t → Q.trig t)
    (h4 : ∀ e, P.ev e → Q.ev e) (h5 : ∀ m, P.msg m → Q.msg m) (h6 : ∀ m a, P.ver m a → Q.ver m a)
    (h7 : ∀ k r h b, P.chk k r h b → Q.chk k r h b) (h8 : ∀ r, P.resp r → Q.resp r) : Q.Holds n :=
  ⟨h1 _ h.st, h2 _ h.smr, fun t ht => h3 _ (h.trig t ht), fun e he => h4 _ (h.ev e he), fun m hm => h5 _ (h.msg m hm),
   fun m a hm => h6 _ _ (h.ver m a hm), fun k r x b hm => h7 _ _ _ _ (h.chk k r x b hm), fun r hr => h8 _ (h.resp r hr)⟩

theorem Preds.take {P : Preds T} {n n1 : NodeSys T} (h : P.Holds n) {x : Arm T} {i : Input T} (ht : n.take x = some (i, n1)) :
    P.input x i ∧ P.Holds n1 := by
  unfold NodeSys.take at ht
  split at ht
  · rename_i m
    simp only [Option.some.injEq, Prod.mk.injEq] at ht
    obtain ⟨rfl, rfl⟩ := ht
    exact ⟨rfl, h⟩
  · split at ht
    · cases ht
    · rename_i ev q hq
      simp only [Option.some.injEq, Prod.mk.injEq] at ht
      obtain ⟨rfl, rfl⟩ := ht
      exact ⟨⟨rfl, h.ev _ (by rw [hq]; simp)⟩,
        ⟨h.st, h.smr, h.trig, fun e he => h.ev e (by rw [hq]; exact List.mem_cons_of_mem _ he), h.msg, h.ver, h.chk, h.resp⟩⟩
  · split at ht
    · cases ht
    · rename_i r q hq
      simp only [Option.some.injEq, Prod.mk.injEq] at ht
      obtain ⟨rfl, rfl⟩ := ht
      exact ⟨⟨rfl, h.resp _ (by rw [hq]; simp)⟩,
        ⟨h.st, h.smr, h.trig, h.ev, h.msg, h.ver, h.chk, fun e he => h.resp e (by rw [hq]; exact List.mem_cons_of_mem _ he)⟩⟩
  · split at ht
    · cases ht
    · rename_i m q hq
      simp only [Option.some.injEq, Prod.mk.injEq] at ht
      obtain ⟨rfl, rfl⟩ := ht
      exact ⟨⟨rfl, h.msg _ (by rw [hq]; simp)⟩,
        ⟨h.st, h.smr, h.trig, h.ev, fun e he => h.msg e (by rw [hq]; exact List.mem_cons_of_mem _ he), h.ver, h.chk, h.resp⟩⟩

theorem Preds.absorb {P : Preds T} {n : NodeSys T} (h : P.Holds n) {l : List (Effect T)} {s : State T} {d : Bool}
    (hs : P.st s) (hl : ∀ x ∈ l, P.eff x) : P.Holds { n.absorb l with st := s, down := d } := by
  refine ⟨hs, h.smr, ?_, h.ev, ?_, ?_, ?_, h.resp⟩
  · intro t ht
    rcases List.mem_append.1 ht with ht | ht
    · exact h.trig t ht
    · exact hl _ (mem_trigsOf.1 ht)
  · intro m hm
    rcases List.mem_append.1 hm with hm | hm
    · exact h.msg m hm
    · obtain ⟨y, hy, he⟩ := List.mem_filterMap.1 hm
      cases y <;> simp at he
      subst he
      exact hl _ hy
  · intro m a hm
    rcases List.mem_append.1 hm with hm | hm
    · exact h.ver m a hm
    · obtain ⟨y, hy, he⟩ := List.mem_filterMap.1 hm
      cases y <;> simp at he
      obtain ⟨rfl, rfl⟩ := he
      exact hl _ hy
  · intro k r x b hm
    rcases List.mem_append.1 hm with hm | hm
    · exact h.chk k r x b hm
    · obtain ⟨y, hy, he⟩ := List.mem_filterMap.1 hm
      cases y <;> simp at he
      obtain ⟨rfl, rfl, rfl, rfl⟩ := he
      exact hl _ hy

theorem Preds.drain {P : Preds T} (hsmr : ∀ m t, P.smr m → P.trig t → P.smr (m.onTrigger t).next ∧
      ∀ ev ∈ (m.onTrigger t).outs.filterMap Out.toState, P.ev ev) :
    ∀ (ts : List SMRTrigger) (n : NodeSys T), P.Holds n → (∀ t ∈ ts, P.trig t) → P.Holds (n.drain ts) := by
  intro ts
  induction ts with
  | nil => intro n h _; exact h
  | cons t ts ih =>
    intro n h ht
    obtain ⟨a, b⟩ := hsmr _ _ h.smr (ht t (by simp))
    have key : ∀ e ∈ n.stQ ++ (n.sys.smr.onTrigger t).outs.filterMap Out.toState, P.ev e := by
      intro e he
      rcases List.mem_append.1 he with he | he
      · exact h.ev e he
      · exact b e he
    simp only [NodeSys.drain]
    split
    · exact ih _ ⟨h.st, a, h.trig, key, h.msg, h.ver, h.chk, h.resp⟩ (fun t h => ht t (by simp [h]))
    · exact ih _ ⟨h.st, a, h.trig, key, h.msg, h.ver, h.chk, h.resp⟩ (fun t h => ht t (by simp [h]))
    · exact ⟨h.st, h.smr, h.trig, h.ev, h.msg, h.ver, h.chk, h.resp⟩
    · exact ⟨h.st, h.smr, h.trig, h.ev, h.msg, h.ver, h.chk, h.resp⟩

/-- Every step keeps the predicates, if every task does. -/
theorem Preds.act {P : Preds T} {addr : Address} {n n' : NodeSys T} {a : NAct T} (h : n.down = false → P.Holds n)
    (ha : n.act addr a = some n')
    (harm : ∀ x e cut i, a = .arm x e cut → P.input x i → P.st n.st →
      P.st (runArm i e ⟨n.st, []⟩).2.st ∧ ∀ y ∈ (runArm i e ⟨n.st, []⟩).2.log, P.eff y)
    (hver : ∀ c i m au, a = .verifyDone c i → n.verifying[i]? = some (m, au) → P.ver m au → verifyTask c m au = true → P.msg m)
    (hchk : ∀ i k r x b, a = .checkDone i true → n.checking[i]? = some (k, r, x, b) → P.chk k r x b → P.resp ⟨k, r, x, true⟩)
    (hsmr : ∀ m t, P.smr m → P.trig t → P.smr (m.onTrigger t).next ∧
      ∀ ev ∈ (m.onTrigger t).outs.filterMap Out.toState, P.ev ev)
    (htim : ∀ ty k r, P.trig (timeoutTrigger ty k r))
    (hstart : ∀ p e cut, a = .start p e cut → P.smr Smr.init ∧
      P.st (runArm .start e ⟨(State.new addr p.initHeight p.interval p.list : State T), []⟩).2.st ∧
      ∀ y ∈ (runArm .start e ⟨(State.new addr p.initHeight p.interval p.list : State T), []⟩).2.log, P.eff y) :
    n'.down = false → P.Holds n' := by
  intro hup
  cases a with
  | start p e cut =>
    obtain ⟨hd, hcase⟩ := start_act ha
    rcases hcase with ⟨h', _⟩ | ⟨_, _, _, heq⟩
    · rw [hup] at h'; cases h'
    rw [heq]
    obtain ⟨g0, g1, g2⟩ := hstart p e cut rfl
    unfold NodeSys.started
    refine Preds.drain hsmr _ _ ?_ (fun t ht => g2 _ (mem_trigsOf.1 ht))
    have hfresh : P.Holds { (NodeSys.fresh addr p n.log : NodeSys T) with st := (runArm .start e ⟨(State.new addr p.initHeight p.interval p.list : State T), []⟩).2.st } :=
      ⟨g1, g0, by simp [NodeSys.fresh, TimerSys.boot], by simp [NodeSys.fresh], by simp [NodeSys.fresh], by simp [NodeSys.fresh],
       by simp [NodeSys.fresh], by simp [NodeSys.fresh]⟩
    have := Preds.absorb (d := false) hfresh g1 g2
    exact ⟨this.st, this.smr, by simp, this.ev, this.msg, this.ver, this.chk, this.resp⟩
  | crash =>
    simp only [NodeSys.act, Option.some.injEq] at ha
    subst ha; simp at hup
  | arm x e cut =>
    simp only [NodeSys.act] at ha
    split at ha
    · cases ha
    · rename_i hd
      have hd := (Bool.not_eq_true _).mp hd
      split at ha
      · cases ha
      · rename_i i n1 ht
        cases ha
        obtain ⟨h1, h2⟩ := Preds.take (h hd) ht
        obtain ⟨g1, g2⟩ := harm x e cut i rfl h1 (h hd).st
        exact Preds.absorb h2 g1 (fun y hy => g2 y (by
          cases cut with
          | none => exact hy
          | some k => exact List.mem_of_mem_take hy))
  | verifyDone c i =>
    simp only [NodeSys.act] at ha
    split at ha
    · cases ha
    · rename_i hd
      have h := h ((Bool.not_eq_true _).mp hd)
      split at ha
      · cases ha
      · rename_i m a' hm
        cases ha
        refine ⟨h.st, h.smr, h.trig, h.ev, ?_, fun m a hm => h.ver m a (List.mem_of_mem_eraseIdx hm), h.chk, h.resp⟩
        intro m' hm'
        rcases List.mem_append.1 hm' with hm' | hm'
        · exact h.msg m' hm'
        · split at hm'
          · rename_i hv
            simp only [List.mem_singleton] at hm'
            subst hm'
            exact hver c i m' a' rfl hm (h.ver _ _ (List.mem_of_getElem? hm)) hv
          · cases hm'
  | checkDone i okb =>
    simp only [NodeSys.act] at ha
    split at ha
    · cases ha
    · rename_i hd
      have h := h ((Bool.not_eq_true _).mp hd)
      split at ha
      · cases ha
      · rename_i k r x b hm
        cases ha
        refine ⟨h.st, h.smr, h.trig, h.ev, h.msg, h.ver, fun k r x b hm => h.chk k r x b (List.mem_of_mem_eraseIdx hm), ?_⟩
        intro r' hr0
        rcases List.mem_append.1 hr0 with hr' | hr'
        · exact h.resp r' hr'
        · clear hr0
          cases okb with
          | false => cases hr'
          | true =>
            have hr' := List.mem_singleton.1 hr'
            subst hr'
            exact hchk i k r x b rfl hm (h.chk _ _ _ _ (List.mem_of_getElem? hm))
  | smr =>
    simp only [NodeSys.act] at ha
    split at ha
    · cases ha
    · rename_i hd
      have h := h ((Bool.not_eq_true _).mp hd)
      split at ha
      · cases ha
      · rename_i t q hq
        split at ha
        · cases ha
        · rename_i sys hsys
          cases ha
          obtain ⟨g1, g2⟩ := hsmr n.sys.smr t h.smr (h.trig t (by rw [hq]; simp))
          have e : sys.smr = (n.sys.smr.onTrigger t).next ∧ sys.trigQ = q := by
            simp only [TimerSys.act, hq] at hsys
            split at hsys
            · cases hsys; exact ⟨rfl, rfl⟩
            · cases hsys; exact ⟨rfl, rfl⟩
            · cases hsys
            · cases hsys
          refine ⟨h.st, e.1 ▸ g1, fun t' ht' => h.trig t' ?_, ?_, h.msg, h.ver, h.chk, h.resp⟩
          · rw [hq]; rw [e.2] at ht'; exact List.mem_cons_of_mem _ ht'
          · intro ev hev
            rcases List.mem_append.1 hev with hev | hev
            · exact h.ev ev hev
            · exact g2 ev hev
  | set =>
    simp only [NodeSys.act] at ha
    split at ha
    · cases ha
    · rename_i hd
      have h := h ((Bool.not_eq_true _).mp hd)
      obtain ⟨sys, hsys, rfl⟩ := Option.map_eq_some_iff.1 ha
      have e : sys.smr = n.sys.smr ∧ sys.trigQ = n.sys.trigQ := by
        simp only [TimerSys.act] at hsys
        split at hsys
        · cases hsys
        · cases hsys
        · cases hsys; exact ⟨rfl, rfl⟩
      exact ⟨h.st, e.1 ▸ h.smr, e.2 ▸ h.trig, h.ev, h.msg, h.ver, h.chk, h.resp⟩
  | expire i =>
    simp only [NodeSys.act] at ha
    split at ha
    · cases ha
    · rename_i hd
      have h := h ((Bool.not_eq_true _).mp hd)
      obtain ⟨sys, hsys, rfl⟩ := Option.map_eq_some_iff.1 ha
      have e : sys.smr = n.sys.smr ∧ sys.trigQ = n.sys.trigQ := by
        simp only [TimerSys.act] at hsys
        split at hsys
        · cases hsys
        · cases hsys; exact ⟨rfl, rfl⟩
      exact ⟨h.st, e.1 ▸ h.smr, e.2 ▸ h.trig, h.ev, h.msg, h.ver, h.chk, h.resp⟩
  | fire i =>
    simp only [NodeSys.act] at ha
    split at ha
    · cases ha
    · rename_i hd
      have h := h ((Bool.not_eq_true _).mp hd)
      obtain ⟨sys, hsys, rfl⟩ := Option.map_eq_some_iff.1 ha
      simp only [TimerSys.act] at hsys
      split at hsys
      · cases hsys
      · rename_i ev hev
        cases hsys
        refine ⟨h.st, h.smr, ?_, h.ev, h.msg, h.ver, h.chk, h.resp⟩
        intro t ht
        rcases List.mem_append.1 ht with ht | ht
        · exact h.trig t ht
        · simp only [Option.mem_toList] at ht
          unfold Timer.trigger at ht
          split at ht <;> try split at ht
          all_goals first | (cases ht; exact htim ..) | (simp at ht)

end Overlord
