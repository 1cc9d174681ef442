import Verif.Proofs.NoPanicNode
import Verif.Proofs.TimerFair
import Verif.Proofs.NodeRestart
import Verif.Proofs.Chokes

/-! The timer invariant (C27) holds of every running node of every history (used for C54). -/

set_option linter.unusedSimpArgs false
set_option linter.unusedVariables false
set_option linter.unusedSectionVars false

namespace Overlord.Pace
open Spec M NoPanic

variable {T : Type} [ContentCodec T] [DecidableEq T]

/-- The triggers of the State's loop. -/
theorem arm_input {e : Env T} {s : State T} {i : Input T} (h0 : i ≠ .start) (hi : i ≠ .verified .stop) {t : SMRTrigger}
    (ht : .trigger t ∈ (runArm i e ⟨s, []⟩).2.log) : StateInput t := by
  obtain ⟨s1, eff, s2, -, hm, hx⟩ := arm_effect (P := fun _ => True) trivial (fun _ _ _ _ _ => trivial) ht
  have qc : ∀ (ty : VoteType) (hash : Hash) (lr : Option Nat) (r k : Nat), StateInput (stTrigger ty.toTrigger hash lr r k) := by
    intro ty hash lr r k; cases ty <;> simp [StateInput, stTrigger, VoteType.toTrigger]
  cases hm with
  | trigQcId r ty qc' =>
    simp only [List.mem_singleton, Effect.trigger.injEq] at hx
    subst hx; exact qc _ _ _ _ _
  | trigQcHash h ty qc' =>
    simp only [List.mem_singleton, Effect.trigger.injEq] at hx
    subst hx; exact qc _ _ _ _ _
  | walLost h => exact absurd h h0
  | walTrigger w b h => exact absurd h h0
  | stop h => exact absurd h hi
  | castVote => simp at hx; split at hx <;> simp at hx
  | enterRound => split at hx <;> simp at hx
  | _ => simp at hx <;> (try (subst hx; simp [StateInput, stTrigger]))

/-- A forwarded message. -/
theorem arm_fwd_ok {e : Env T} {s : State T} {i : Input T} {m : OverlordMsg T} (h : .toVerified m ∈ (runArm i e ⟨s, []⟩).2.log) : m ≠ .stop := by
  rintro rfl
  have := arm_fwd h
  subst this
  simp [runArm, OverlordMsg.isRichStatus, OverlordMsg.getHeight?] at h
  revert h
  simp [M.fail]

theorem arm_spawn_ok {e : Env T} {s : State T} {i : Input T} {m : OverlordMsg T} {a : Authority}
    (h : .spawnVerify m a ∈ (runArm i e ⟨s, []⟩).2.log) : m ≠ .stop := (arm_spawn (mode := .rotation) h).1

theorem arm_chokes {e : Env T} {s : State T} {i : Input T} (h : ChokesOk s.chokes) : ChokesOk (runArm i e ⟨s, []⟩).2.st.chokes :=
  arm_state_inv (e := e) (i := i) (P := fun s => ChokesOk s.chokes) h fun _ _ _ h hm => chokesOk_micro h hm

/-- What is true of a running node. -/
structure NT (n : NodeSys T) : Prop where
  tinv : TInv n.sys
  ver : ∀ m ∈ n.verifiedQ, m ≠ .stop
  task : ∀ p ∈ n.verifying, p.1 ≠ .stop
  run : n.st.stopped = false
  ck : ChokesOk n.st.chokes

theorem inputs_tinv : ∀ (ts : List SMRTrigger) (s : TimerSys), TInv s → (∀ t ∈ ts, StateInput t) → TInv { s with trigQ := s.trigQ ++ ts } := by
  intro ts
  induction ts with
  | nil => intro s h _; simpa using h
  | cons t ts ih =>
    intro s h ht
    have h1 := act_inv (a := .input t) h (ht t (by simp)) rfl
    have := ih _ h1 (fun t' h' => ht t' (List.mem_cons_of_mem _ h'))
    simpa using this

theorem drain_tinv : ∀ (ts : List SMRTrigger) (n : NodeSys T), TInv n.sys → n.sys.trigQ = [] → (∀ t ∈ ts, StateInput t) →
    (n.drain ts).down = false → TInv (n.drain ts).sys ∧ (n.drain ts).sys.trigQ = [] := by
  intro ts
  induction ts with
  | nil => intro n h hq _ _; exact ⟨h, hq⟩
  | cons t ts ih =>
    intro n h hq ht hd
    have h1 := act_inv (a := .input t) h (ht t (by simp)) rfl
    have step : (n.sys.smr.onTrigger t).res = .ok ∨ (∃ x, (n.sys.smr.onTrigger t).res = .err x) →
        TInv { n.sys with smr := (n.sys.smr.onTrigger t).next, evtQ := n.sys.evtQ ++ (n.sys.smr.onTrigger t).outs.map Out.event } := by
      intro hr
      refine act_inv (a := .smr) h1 trivial ?_
      simp only [TimerSys.act, hq, List.nil_append]
      rcases hr with hr | ⟨x, hr⟩ <;> rw [hr]
    simp only [NodeSys.drain] at hd ⊢
    split at hd
    · rename_i hr
      exact ih _ (step (.inl hr)) hq (fun t' h' => ht t' (List.mem_cons_of_mem _ h')) hd
    · rename_i x hr
      exact ih _ (step (.inr ⟨_, hr⟩)) hq (fun t' h' => ht t' (List.mem_cons_of_mem _ h')) hd
    · simp at hd
    · simp at hd

theorem drain_verified {ts : List SMRTrigger} : ∀ (n : NodeSys T), (n.drain ts).verifiedQ = n.verifiedQ ∧ (n.drain ts).verifying = n.verifying := by
  induction ts with
  | nil => intro n; exact ⟨rfl, rfl⟩
  | cons t ts ih =>
    intro n
    simp only [NodeSys.drain]
    split <;> first | exact ⟨rfl, rfl⟩ | exact ih _

theorem walTrig_inv {s : TimerSys} {b : SMRBase} (hb : b.step ≠ .commit) (ht : s.timer.height = 0) (hq : s.trigQ = []) (he : s.evtQ = [])
    (ha : s.armed = []) (hn : s.notify = []) :
    TInv { s with smr := (s.smr.handleWal b).next, evtQ := s.evtQ ++ (s.smr.handleWal b).outs.map Out.event } := by
  obtain ⟨h, r, st, p⟩ := b
  cases st <;> simp at hb
  all_goals
    refine ⟨by simp [hq], by simp [he, Smr.handleWal, Smr.timerEventAfterWal, Out.event], ?_, ?_, ?_⟩
    · simp [ht]
    · simp [he, Smr.handleWal, Smr.timerEventAfterWal, Out.event, backs]
    · intro _
      refine .evt _ [] [] ?_ (by simp only [he]; rfl) (by simp [NoNRI])
      simp [Smr.handleWal, Smr.timerEventAfterWal, Out.event, backs, Smr.at3]

/-- After a start. -/
theorem start_nt {addr : Address} {n n' : NodeSys T} {p : StartParams} {e : Env T} {cut : Option Nat}
    (ok : StartOk addr n (.start p e cut)) (h : n.act addr (.start p e cut) = some n') (hd : n'.down = false) : NT n' := by
  obtain ⟨hd0, hc⟩ := start_act h
  rcases hc with ⟨h1, _⟩ | ⟨_, _, _, h4⟩
  · rw [h1] at hd; cases hd
  have hver : (∀ m ∈ n'.verifiedQ, m ≠ .stop) ∧ ∀ p ∈ n'.verifying, p.1 ≠ .stop := by
    rw [h4]
    unfold NodeSys.started
    obtain ⟨v1, v2⟩ := drain_verified (ts := trigsOf (runArm .start e ⟨State.new addr p.initHeight p.interval p.list, []⟩).2.log)
      ({ (NodeSys.fresh addr p n.log).absorb (runArm .start e ⟨State.new addr p.initHeight p.interval p.list, []⟩).2.log with
        sys := { (NodeSys.fresh addr p n.log : NodeSys T).sys with trigQ := [] },
        st := (runArm .start e ⟨State.new addr p.initHeight p.interval p.list, []⟩).2.st, down := false } : NodeSys T)
    rw [v1, v2]
    constructor
    · intro m hm
      simp [NodeSys.absorb, NodeSys.fresh] at hm
      obtain ⟨x, hx, hm⟩ := hm
      split at hm
      · cases hm; exact arm_fwd_ok hx
      · cases hm
    · intro m hm
      simp [NodeSys.absorb, NodeSys.fresh] at hm
      obtain ⟨x, hx, hm⟩ := hm
      split at hm
      · cases hm; exact arm_spawn_ok hx
      · cases hm
  refine ⟨?_, hver.1, hver.2, ?_, ?_⟩
  rotate_left
  · rw [h4]; unfold NodeSys.started; rw [drain_st]
    exact arm_running (i := .start) (by simp) rfl
  · rw [h4]; unfold NodeSys.started; rw [drain_st]
    exact arm_chokes ChokesOk.new
  -- the machine and the timer of a fresh node
  have boot : TInv ({ (NodeSys.fresh addr p n.log : NodeSys T).sys with trigQ := [] } : TimerSys) := boot_inv p.interval p.timerConfig none trivial
  have gen : ∀ w : World T, n' = NodeSys.started addr p n.log w → (∀ t, .trigger t ∈ w.log → StateInput t) → TInv n'.sys := by
    rintro w rfl hw
    unfold NodeSys.started at hd ⊢
    refine (drain_tinv _ _ ?_ rfl (fun t ht => hw t ((mem_trigsOf).1 ht)) hd).1
    exact boot
  have wal : ∀ (n1 : NodeSys T) (b : SMRBase), n1.sys = ({ (NodeSys.fresh addr p n.log : NodeSys T).sys with trigQ := [] } : TimerSys) → b.step ≠ .commit →
      TInv (n1.drain [walTrig b]).sys := by
    intro n1 b h1 hb
    have h : n1.sys.smr.onTrigger (walTrig b) = n1.sys.smr.handleWal b := rfl
    have hi := walTrig_inv (s := n1.sys) hb (by rw [h1]; rfl) (by rw [h1]) (by rw [h1]; rfl) (by rw [h1]; rfl) (by rw [h1]; rfl)
    obtain ⟨ev, he⟩ : ∃ ev, n1.sys.smr.handleWal b = ⟨(n1.sys.smr.handleWal b).next, [.timerOnly ev], .ok⟩ := by
      unfold Smr.handleWal Smr.timerEventAfterWal
      cases hs : b.step <;> simp_all
    simp only [NodeSys.drain, h]
    rw [he] at hi ⊢
    exact hi
  have ho := start_out e (State.new addr p.initHeight p.interval p.list : State T)
  generalize (runArm .start e ⟨State.new addr p.initHeight p.interval p.list, []⟩).2 = w at *
  have noCom : ∀ (rec : WalInfo T), rec.step ≠ .commit → rec.intoSmrBase.step ≠ .commit := fun rec h => h
  cases ho with
  | idle hw _ => exact gen w h4 (by subst hw; simp)
  | fresh hp hl hh hw =>
    subst hw
    rw [h4]
    exact wal _ _ rfl (by simp)
  | noLeader b rec x hp hl hd hx hw => exact gen w h4 (by subst hw; simp)
  | noLock b rec q hp hl hd hx hst hk hw => exact gen w h4 (by subst hw; simp)
  | commit b rec q lock hp hl hd hx hst hk o =>
    refine gen w h4 ?_
    cases o with
    | none _ => simp
    | lost => simp
    | failed => simp
    | stuck => simp
    | done c qc status w1 _ _ _ _ hm =>
      cases hm with
      | stay => simp
      | away => simp
      | lost => simp
      | adopt => simp [stTrigger, StateInput]
  | brake b rec q hp hl hdc hx hst w1 o hw =>
    have hh : rec.height ≠ 0 := by
      have hpow : (p.list.map Node.address).contains addr = true := by rw [← new_power (T := T)]; exact hp
      simp only [StartOk, hpow, if_true] at ok
      split at ok
      · rw [ok] at hl; cases hl
      · obtain ⟨t1, b', t2, t3⟩ := ok
        rw [t2] at hl; cases hl
        rw [t3] at hdc; cases hdc
        exact t1
    have ht : ∀ t ∈ trigsOf w1.log, t.triggerType = .continueRound ∧ t.height ≠ 0 := by
      intro t ht
      obtain ⟨g1, g2⟩ := o.trigs t (mem_trigsOf.1 ht)
      rw [(restored_pos _ rec q).1] at g2
      exact ⟨g1, by rw [g2]; exact hh⟩
    rcases hw with rfl | rfl
    · rw [h4] at hd ⊢
      unfold NodeSys.started at hd ⊢
      have := drain_idle (trigsOf w.log) [] ({ (NodeSys.fresh addr p n.log).absorb w.log with
        sys := { (NodeSys.fresh addr p n.log : NodeSys T).sys with trigQ := [] }, st := w.st, down := false } : NodeSys T) ht
        (by rw [List.append_nil]; exact hd)
      rw [List.append_nil] at this
      rw [this]
      exact boot
    · rw [h4] at hd ⊢
      unfold NodeSys.started at hd ⊢
      dsimp only at hd ⊢
      rw [trigsOf_append] at hd ⊢
      rw [drain_idle (trigsOf w1.log) _ _ ht hd]
      exact wal _ _ rfl (noCom rec (by rw [hst]; simp))
  | resume b rec q hp hl hd hx hst hsb hw =>
    subst hw
    rw [h4]
    exact wal _ _ rfl (noCom rec hst)

/-- Every step. -/
theorem nt_step {addr : Address} {n n' : NodeSys T} {a : NAct T} (hi : n.down = false → NT n) (ok : StartOk addr n a)
    (h : n.act addr a = some n') (hup : n'.down = false) : NT n' := by
  cases hd : n.down with
  | true =>
    obtain ⟨p, e, rfl⟩ := down_stays hd h hup
    exact start_nt ok h hup
  | false =>
    have hi := hi hd
    cases a with
    | start p e cut => simp [NodeSys.act, hd] at h
    | crash => cases h; cases hup
    | arm x e cut =>
      simp only [NodeSys.act, hd, Bool.false_eq_true, if_false] at h
      split at h
      · cases h
      · rename_i i n1 htk
        cases h
        obtain ⟨rfl, hr⟩ := took_up hup
        obtain ⟨h1, h2, h3, h4, h5⟩ := take_spec htk
        have hio : (∀ m ∈ n1.verifiedQ, m ≠ .stop) ∧ n1.verifying = n.verifying ∧ i ≠ .verified .stop := by
          cases x with
          | raw m =>
            simp only [NodeSys.take, Option.some.injEq, Prod.mk.injEq] at htk; obtain ⟨rfl, rfl⟩ := htk
            exact ⟨hi.ver, rfl, by simp⟩
          | event =>
            simp only [NodeSys.take] at htk
            split at htk
            · cases htk
            · simp only [Option.some.injEq, Prod.mk.injEq] at htk; obtain ⟨rfl, rfl⟩ := htk
              exact ⟨hi.ver, rfl, by simp⟩
          | resp =>
            simp only [NodeSys.take] at htk
            split at htk
            · cases htk
            · simp only [Option.some.injEq, Prod.mk.injEq] at htk; obtain ⟨rfl, rfl⟩ := htk
              exact ⟨hi.ver, rfl, by simp⟩
          | verified =>
            simp only [NodeSys.take] at htk
            split at htk
            · cases htk
            · rename_i m q hq
              simp only [Option.some.injEq, Prod.mk.injEq] at htk; obtain ⟨rfl, rfl⟩ := htk
              have hm := hi.ver m (by rw [hq]; simp)
              refine ⟨fun y hy => hi.ver y (by rw [hq]; exact List.mem_cons_of_mem _ hy), rfl, ?_⟩
              intro he; cases he; exact hm rfl
        obtain ⟨hver, hvf, hns⟩ := hio
        refine ⟨?_, ?_, ?_, arm_running hns hi.run, arm_chokes hi.ck⟩
        · show TInv { n1.sys with trigQ := n1.sys.trigQ ++ trigsOf (runArm i e ⟨n.st, []⟩).2.log }
          rw [h4]
          exact inputs_tinv _ _ hi.tinv (fun t ht => arm_input h1 hns (mem_trigsOf.1 ht))
        · intro m hm
          simp only [NodeSys.took, NodeSys.absorb, cutTo, List.mem_append, List.mem_filterMap] at hm
          rcases hm with hm | ⟨x, hx, hm⟩
          · exact hver m hm
          · split at hm
            · cases hm; exact arm_fwd_ok hx
            · cases hm
        · intro m hm
          simp only [NodeSys.took, NodeSys.absorb, cutTo, List.mem_append, List.mem_filterMap] at hm
          rcases hm with hm | ⟨x, hx, hm⟩
          · rw [hvf] at hm; exact hi.task m hm
          · split at hm
            · cases hm; exact arm_spawn_ok hx
            · cases hm
    | verifyDone c j =>
      simp only [NodeSys.act, hd, Bool.false_eq_true, if_false] at h
      split at h
      · cases h
      · rename_i m b hm
        cases h
        refine ⟨hi.tinv, ?_, fun y hy => hi.task y (List.mem_of_mem_eraseIdx hy), hi.run, hi.ck⟩
        intro y hy
        rcases List.mem_append.1 hy with hy | hy
        · exact hi.ver y hy
        · split at hy
          · rw [List.mem_singleton.1 hy]
            exact hi.task _ (List.mem_of_getElem? hm)
          · cases hy
    | checkDone j ok =>
      simp only [NodeSys.act, hd, Bool.false_eq_true, if_false] at h
      split at h
      · cases h
      · cases h; exact ⟨hi.tinv, hi.ver, hi.task, hi.run, hi.ck⟩
    | smr =>
      simp only [NodeSys.act, hd, Bool.false_eq_true, if_false] at h
      split at h
      · cases h
      · split at h
        · cases h
        · rename_i sys hsys
          cases h
          exact ⟨act_inv (a := .smr) hi.tinv trivial hsys, hi.ver, hi.task, hi.run, hi.ck⟩
    | set =>
      simp only [NodeSys.act, hd, Bool.false_eq_true, if_false, Option.map_eq_some_iff] at h
      obtain ⟨sys, hsys, rfl⟩ := h
      exact ⟨act_inv (a := .set) hi.tinv trivial hsys, hi.ver, hi.task, hi.run, hi.ck⟩
    | expire j =>
      simp only [NodeSys.act, hd, Bool.false_eq_true, if_false, Option.map_eq_some_iff] at h
      obtain ⟨sys, hsys, rfl⟩ := h
      exact ⟨act_inv (a := (.expire j)) hi.tinv trivial hsys, hi.ver, hi.task, hi.run, hi.ck⟩
    | fire j =>
      simp only [NodeSys.act, hd, Bool.false_eq_true, if_false, Option.map_eq_some_iff] at h
      obtain ⟨sys, hsys, rfl⟩ := h
      exact ⟨act_inv (a := (.fire j)) hi.tinv trivial hsys, hi.ver, hi.task, hi.run, hi.ck⟩

/-- The invariant along every history. -/
theorem nt_run {addr : Address} {as : List (NAct T)} {n : NodeSys T} (h : (NodeSys.new addr).run addr as = some n)
    (ok : Along (StartOk addr) addr (NodeSys.new addr) as) : n.down = false → NT n :=
  along_inv (P := fun n => n.down = false → NT n) (fun n a n' hi ok h => nt_step hi ok h) as _ n (fun hn => by cases hn) ok h

end Overlord.Pace
