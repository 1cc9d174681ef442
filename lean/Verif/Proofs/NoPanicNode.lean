import Verif.Proofs.NoPanic
import Verif.Proofs.NodeStart

/-! A node that is up stays up (used for C48). -/

set_option linter.unusedSimpArgs false
set_option linter.unusedVariables false
set_option linter.unusedSectionVars false

namespace Overlord.NoPanic
open Spec M

variable {T : Type} [ContentCodec T] [DecidableEq T]

/-- A trigger that ends no task. -/
def TSafe (t : SMRTrigger) : Prop :=
  ∀ m : Smr, (m.onTrigger t).res ≠ .ended ∧ (m.onTrigger t).res ≠ .panic ∧ ∀ o ∈ (m.onTrigger t).outs, o.event ≠ .stop

/-- A message the State can handle. -/
def MSafe (mode : LeaderMode) (m : OverlordMsg T) : Prop := m ≠ .stop ∧ ∀ st, m = .richStatus st → Usable mode st.authorityList

theorem tsafe_of {t : SMRTrigger} (h1 : t.triggerType ≠ .stop) (h2 : t.triggerType = .brakeTimeout → t.source = .timer)
    (h3 : t.triggerType = .continueRound → t.source = .state)
    (h4 : t.triggerType = .walInfo → ∃ b : SMRBase, t.walInfo = some b ∧ b.step ≠ .commit) : TSafe t := by
  intro m
  unfold Smr.onTrigger
  split
  · unfold Smr.handleNewHeight; repeat' split
    all_goals simp [Out.event]
  · unfold Smr.handleProposal Smr.idle; repeat' split
    all_goals simp [Out.event]
  · unfold Smr.handlePrevote Smr.idle
    simp only
    repeat' split
    all_goals simp [Out.event]
  · unfold Smr.handlePrecommit Smr.idle; repeat' split
    all_goals simp [Out.event]
  · rename_i h; rw [if_pos (h2 h)]; unfold Smr.handleBrakeTimeout Smr.idle; split <;> simp [Out.event]
  · rename_i h; rw [if_pos (h3 h)]; unfold Smr.handleContinueRound Smr.idle; split <;> simp [Out.event]
  · rename_i h
    obtain ⟨b, hb, hs⟩ := h4 h
    rw [hb]
    simp only [Smr.handleWal, Smr.timerEventAfterWal]
    cases hs' : b.step <;> simp_all [Out.event]
  · rename_i h; exact absurd h h1

theorem qc_tsafe (ty : VoteType) (hash : Hash) (lr : Option Nat) (r k : Nat) : TSafe (stTrigger ty.toTrigger hash lr r k) := by
  apply tsafe_of <;> cases ty <;> simp [stTrigger, VoteType.toTrigger]

/-- The triggers of the State. -/
theorem arm_tsafe {e : Env T} {s : State T} {i : Input T} (hi : i ≠ .verified .stop) {t : SMRTrigger}
    (ht : .trigger t ∈ (runArm i e ⟨s, []⟩).2.log) : TSafe t := by
  obtain ⟨s1, eff, s2, -, hm, hx⟩ := arm_effect (P := fun _ => True) trivial (fun _ _ _ _ _ => trivial) ht
  cases hm with
  | trigQcId r ty qc =>
    simp only [List.mem_singleton, Effect.trigger.injEq] at hx
    subst hx; exact qc_tsafe _ _ _ _ _
  | trigQcHash h ty qc =>
    simp only [List.mem_singleton, Effect.trigger.injEq] at hx
    subst hx; exact qc_tsafe _ _ _ _ _
  | walLost h =>
    simp only [List.mem_singleton, Effect.trigger.injEq] at hx
    subst hx; apply tsafe_of <;> simp [walTrig, stTrigger]
  | walTrigger w b h _ _ hc =>
    simp only [List.mem_singleton, Effect.trigger.injEq] at hx
    subst hx; apply tsafe_of <;> simp [walTrig, stTrigger]
    exact hc
  | stop h => exact absurd h hi
  | castVote => simp at hx; split at hx <;> simp at hx
  | enterRound => split at hx <;> simp at hx
  | _ => simp at hx <;> (try (subst hx; apply tsafe_of <;> simp [stTrigger]))

theorem arm_fwd {e : Env T} {s : State T} {i : Input T} {m : OverlordMsg T} (h : .toVerified m ∈ (runArm i e ⟨s, []⟩).2.log) : i = .raw m := by
  obtain ⟨s1, eff, s2, -, hm, hx⟩ := arm_effect (P := fun _ => True) trivial (fun _ _ _ _ _ => trivial) h
  cases hm with
  | forward m hi => simp at hx; subst hx; exact hi
  | enterRound => split at hx <;> simp at hx
  | castVote => split at hx <;> simp at hx
  | _ => simp at hx

theorem arm_spawn {mode : LeaderMode} {e : Env T} {s : State T} {i : Input T} {m : OverlordMsg T} {a : Authority}
    (h : .spawnVerify m a ∈ (runArm i e ⟨s, []⟩).2.log) : MSafe mode m := by
  obtain ⟨s1, eff, s2, -, hm, hx⟩ := arm_effect (P := fun _ => True) trivial (fun _ _ _ _ _ => trivial) h
  cases hm with
  | verify m hi hh hr =>
    simp at hx; obtain ⟨rfl, -⟩ := hx
    constructor
    · rintro rfl; cases hh
    · rintro st rfl; cases hr
  | adopt st =>
    simp [State.recheck] at hx
    constructor
    · rintro rfl
      simp at hx
    · rintro st rfl
      simp at hx
  | enterRound => split at hx <;> simp at hx
  | castVote => split at hx <;> simp at hx
  | _ => simp at hx

theorem arm_running {e : Env T} {s : State T} {i : Input T} (hi : i ≠ .verified .stop) (h : s.stopped = false) :
    (runArm i e ⟨s, []⟩).2.st.stopped = false := by
  refine arm_state_inv (e := e) (i := i) (P := fun s => s.stopped = false) h ?_
  intro s1 eff s2 h hm
  cases hm with
  | stop hi' => exact absurd hi' hi
  | _ => exact h

/-- What is true of a running node. -/
structure Inv (mode : LeaderMode) (n : NodeSys T) : Prop where
  au : Au mode n.st.authority
  run : n.st.stopped = false
  ev : ∀ x ∈ n.stQ, x ≠ .stop
  tv : ∀ x ∈ n.sys.evtQ, x ≠ .stop
  tr : ∀ t ∈ n.sys.trigQ, TSafe t
  ver : ∀ m ∈ n.verifiedQ, MSafe mode m
  run' : ∀ p ∈ n.verifying, MSafe mode p.1

theorem timer_tsafe {tm : Timer} {e : SMREvent} {t : SMRTrigger} (h : tm.trigger e = some t) : TSafe t := by
  cases e <;> simp only [Timer.trigger] at h
  all_goals first
    | (split at h <;> simp only [Option.some.injEq, reduceCtorEq] at h; subst h; apply tsafe_of <;> simp [timeoutTrigger])
    | cases h

theorem toState_stop {l : List Out} (h : ∀ o ∈ l, o.event ≠ .stop) : ∀ x ∈ l.filterMap Out.toState, x ≠ .stop := by
  intro x hx
  obtain ⟨o, ho, hx⟩ := List.mem_filterMap.1 hx
  have := h o ho
  cases o <;> simp [Out.toState] at hx
  subst hx; exact this

theorem event_stop {l : List Out} (h : ∀ o ∈ l, o.event ≠ .stop) : ∀ x ∈ l.map Out.event, x ≠ .stop := by
  intro x hx
  obtain ⟨o, ho, rfl⟩ := List.mem_map.1 hx
  exact h o ho

/-- The triggers of a start. -/
theorem drain_up {mode : LeaderMode} : ∀ (ts : List SMRTrigger) (n : NodeSys T), (∀ t ∈ ts, TSafe t) → Inv mode n → n.down = false →
    Inv mode (n.drain ts) ∧ (n.drain ts).down = false := by
  intro ts
  induction ts with
  | nil => intro n _ h hd; exact ⟨h, hd⟩
  | cons t ts ih =>
    intro n ht h hd
    obtain ⟨h1, h2, h3⟩ := ht t (by simp) n.sys.smr
    have step : Inv mode ({ n with sys := { n.sys with smr := (n.sys.smr.onTrigger t).next, evtQ := n.sys.evtQ ++ (n.sys.smr.onTrigger t).outs.map Out.event }, stQ := n.stQ ++ (n.sys.smr.onTrigger t).outs.filterMap Out.toState } : NodeSys T) :=
      { h with
        ev := fun x hx => (List.mem_append.1 hx).elim (h.ev x) (toState_stop h3 x)
        tv := fun x hx => (List.mem_append.1 hx).elim (h.tv x) (event_stop h3 x) }
    simp only [NodeSys.drain]
    split
    · exact ih _ (fun t' h' => ht t' (List.mem_cons_of_mem _ h')) step hd
    · exact ih _ (fun t' h' => ht t' (List.mem_cons_of_mem _ h')) step hd
    · rename_i hr; exact absurd hr h1
    · rename_i hr; exact absurd hr h2

/-- The last step of a schedule. -/
theorem along_snoc {ok : NodeSys T → NAct T → Prop} {addr : Address} : ∀ {as : List (NAct T)} {n n' : NodeSys T} {a : NAct T},
    Along ok addr n (as ++ [a]) → n.run addr as = some n' → Along ok addr n as ∧ ok n' a := by
  intro as
  induction as with
  | nil => intro n n' a h hr; cases hr; exact ⟨trivial, h.1⟩
  | cons b as ih =>
    intro n n' a h hr
    simp only [NodeSys.run] at hr
    split at hr
    · cases hr
    · rename_i n1 h1
      have h2 := ih (h.2 n1 h1) hr
      refine ⟨⟨h.1, fun n2 hn2 => ?_⟩, h2.2⟩
      rw [h1] at hn2; cases hn2; exact h2.1

section
variable (hE : Encodes T)
include hE

theorem start_up {mode : LeaderMode} {addr : Address} {n n' : NodeSys T} {p : StartParams} {e : Env T}
    (hs : SoundInput mode n (.start p e none)) (h : n.act addr (.start p e none) = some n') : Inv mode n' ∧ n'.down = false := by
  obtain ⟨rfl, hc, hp, hw⟩ := hs
  have ha := arm_up (i := .start) (s := (NodeSys.fresh addr p n.log : NodeSys T).st) hE hc hw (au_update hp) (by simp)
  simp only [NodeSys.act] at h
  split at h
  · rw [if_neg (by simp [NodeSys.took, ha.1])] at h
    cases h
    refine drain_up _ _ ?_ ?_ ?_
    · intro t ht
      have ht : t ∈ [] ++ trigsOf (runArm .start e ⟨(NodeSys.fresh addr p n.log : NodeSys T).st, []⟩).2.log := ht
      rw [List.nil_append, mem_trigsOf] at ht
      exact arm_tsafe (by simp) ht
    · refine ⟨ha.2, arm_running (by simp) rfl, by simp [NodeSys.took, NodeSys.absorb, NodeSys.fresh],
        by simp [NodeSys.took, NodeSys.absorb, NodeSys.fresh, TimerSys.boot], by simp, ?_, ?_⟩
      · intro m hm
        simp [NodeSys.took, NodeSys.absorb, NodeSys.fresh, cutTo] at hm
        obtain ⟨x, hx, hm⟩ := hm
        split at hm
        · cases hm; cases arm_fwd hx
        · cases hm
      · intro m hm
        simp [NodeSys.took, NodeSys.absorb, NodeSys.fresh, cutTo] at hm
        obtain ⟨x, hx, hm⟩ := hm
        split at hm
        · cases hm; exact arm_spawn hx
        · cases hm
    · simp [NodeSys.took, ha.1]
  · cases h

/-- Every step that is no crash. -/
theorem inv_step {mode : LeaderMode} {addr : Address} {n n' : NodeSys T} {a : NAct T} (hi : Inv mode n) (hd : n.down = false)
    (hs : SoundInput mode n a) (hc : crashStep a = false) (h : n.act addr a = some n') : Inv mode n' ∧ n'.down = false := by
  cases a with
  | start p e cut =>
    simp only [NodeSys.act, hd, Bool.false_eq_true, if_false] at h
    cases h
  | crash => cases hc
  | arm x e cut =>
    have : cut = none := by simpa [crashStep] using hc
    subst this
    obtain ⟨rfl, hcm, hx, hst⟩ := hs
    simp only [NodeSys.act, hd, Bool.false_eq_true, if_false] at h
    split at h
    · cases h
    · rename_i i n1 htk
      cases h
      obtain ⟨h1, h2, h3, h4, h5⟩ := take_spec htk
      have hio : InputOk e i ∧ (∀ m, i = .raw m → MSafe e.mode m) ∧ (∀ ev ∈ n1.stQ, ev ≠ .stop) ∧ (∀ m ∈ n1.verifiedQ, MSafe e.mode m) ∧
          n1.verifying = n.verifying ∧ i ≠ .verified .stop := by
        cases x with
        | raw m =>
          simp only [NodeSys.take, Option.some.injEq, Prod.mk.injEq] at htk; obtain ⟨rfl, rfl⟩ := htk
          have hm : m ≠ .stop := fun he => hx (by rw [he])
          refine ⟨hm, ?_, hi.ev, hi.ver, rfl, by simp⟩
          intro m' hm'
          cases hm'
          exact ⟨hm, fun st he => hst st (by rw [he])⟩
        | event =>
          simp only [NodeSys.take] at htk
          split at htk
          · cases htk
          · rename_i ev q hq
            simp only [Option.some.injEq, Prod.mk.injEq] at htk; obtain ⟨rfl, rfl⟩ := htk
            exact ⟨hi.ev ev (by rw [hq]; simp), by simp, fun y hy => hi.ev y (by rw [hq]; exact List.mem_cons_of_mem _ hy), hi.ver, rfl, by simp⟩
        | resp =>
          simp only [NodeSys.take] at htk
          split at htk
          · cases htk
          · simp only [Option.some.injEq, Prod.mk.injEq] at htk; obtain ⟨rfl, rfl⟩ := htk
            exact ⟨trivial, by simp, hi.ev, hi.ver, rfl, by simp⟩
        | verified =>
          simp only [NodeSys.take] at htk
          split at htk
          · cases htk
          · rename_i m q hq
            simp only [Option.some.injEq, Prod.mk.injEq] at htk; obtain ⟨rfl, rfl⟩ := htk
            have hm := hi.ver m (by rw [hq]; simp)
            refine ⟨hm.2, by simp, hi.ev, fun y hy => hi.ver y (by rw [hq]; exact List.mem_cons_of_mem _ hy), rfl, ?_⟩
            intro he; cases he; exact hm.1 rfl
      obtain ⟨ho, hraw, hev, hver, hvf, hns⟩ := hio
      have ha := arm_up (i := i) (s := n.st) hE hcm ho hi.au (fun _ _ => hi.run)
      have hup : (n1.took none (runArm i e ⟨n.st, []⟩)).down = false := by simp [NodeSys.took, ha.1]
      refine ⟨⟨ha.2, arm_running hns hi.run, hev, ?_, ?_, ?_, ?_⟩, hup⟩
      · show ∀ x ∈ n1.sys.evtQ, x ≠ .stop
        rw [h4]; exact hi.tv
      · intro t ht
        have ht : t ∈ n1.sys.trigQ ++ trigsOf (runArm i e ⟨n.st, []⟩).2.log := ht
        rw [h4, List.mem_append, mem_trigsOf] at ht
        exact ht.elim (hi.tr t) (arm_tsafe hns)
      · intro m hm
        simp only [NodeSys.took, NodeSys.absorb, cutTo, List.mem_append, List.mem_filterMap] at hm
        rcases hm with hm | ⟨x, hx, hm⟩
        · exact hver m hm
        · split at hm
          · cases hm; exact hraw _ (arm_fwd hx)
          · cases hm
      · intro m hm
        simp only [NodeSys.took, NodeSys.absorb, cutTo, List.mem_append, List.mem_filterMap] at hm
        rcases hm with hm | ⟨x, hx, hm⟩
        · rw [hvf] at hm; exact hi.run' m hm
        · split at hm
          · cases hm; exact arm_spawn hx
          · cases hm
  | verifyDone c j =>
    simp only [NodeSys.act, hd, Bool.false_eq_true, if_false] at h
    split at h
    · cases h
    · rename_i m b hm
      cases h
      refine ⟨{ hi with ver := ?_, run' := ?_ }, rfl⟩
      · intro y hy
        rcases List.mem_append.1 hy with hy | hy
        · exact hi.ver y hy
        · split at hy
          · rw [List.mem_singleton.1 hy]
            exact hi.run' _ (List.mem_of_getElem? hm)
          · cases hy
      · exact fun y hy => hi.run' y (List.mem_of_mem_eraseIdx hy)
  | checkDone j ok =>
    simp only [NodeSys.act, hd, Bool.false_eq_true, if_false] at h
    split at h
    · cases h
    · cases h; exact ⟨{ hi with }, rfl⟩
  | smr =>
    simp only [NodeSys.act, hd, Bool.false_eq_true, if_false] at h
    split at h
    · cases h
    · rename_i t q hq
      obtain ⟨h1, h2, h3⟩ := hi.tr t (by rw [hq]; simp) n.sys.smr
      simp only [TimerSys.act, hq] at h
      have key : ∀ n'' : NodeSys T, n'' = ({ n with sys := { n.sys with smr := (n.sys.smr.onTrigger t).next, trigQ := q, evtQ := n.sys.evtQ ++ (n.sys.smr.onTrigger t).outs.map Out.event }, stQ := n.stQ ++ (n.sys.smr.onTrigger t).outs.filterMap Out.toState, down := false } : NodeSys T) → Inv mode n'' ∧ n''.down = false := by
        rintro _ rfl
        exact ⟨{ hi with
          ev := fun x hx => (List.mem_append.1 hx).elim (hi.ev x) (toState_stop h3 x)
          tv := fun x hx => (List.mem_append.1 hx).elim (hi.tv x) (event_stop h3 x)
          tr := fun x hx => hi.tr x (by rw [hq]; exact List.mem_cons_of_mem _ hx) }, rfl⟩
      split at h
      · cases h
      · rename_i sys hsys
        cases h
        apply key
        split at hsys
        · cases hsys; rfl
        · cases hsys; rfl
        · cases hsys
        · cases hsys
  | set =>
    simp only [NodeSys.act, hd, Bool.false_eq_true, if_false, Option.map_eq_some_iff] at h
    obtain ⟨sys, hsys, rfl⟩ := h
    simp only [TimerSys.act] at hsys
    split at hsys
    · cases hsys
    · cases hsys
    · rename_i x q _ hq
      cases hsys
      exact ⟨{ hi with tv := fun y hy => hi.tv y (by rw [hq]; exact List.mem_cons_of_mem _ hy) }, rfl⟩
  | expire j =>
    simp only [NodeSys.act, hd, Bool.false_eq_true, if_false, Option.map_eq_some_iff] at h
    obtain ⟨sys, hsys, rfl⟩ := h
    simp only [TimerSys.act] at hsys
    split at hsys
    · cases hsys
    · cases hsys; exact ⟨{ hi with }, rfl⟩
  | fire j =>
    simp only [NodeSys.act, hd, Bool.false_eq_true, if_false, Option.map_eq_some_iff] at h
    obtain ⟨sys, hsys, rfl⟩ := h
    simp only [TimerSys.act] at hsys
    split at hsys
    · cases hsys
    · rename_i x hx
      cases hsys
      refine ⟨{ hi with tr := ?_ }, rfl⟩
      intro t ht
      rcases List.mem_append.1 ht with ht | ht
      · exact hi.tr t ht
      · exact timer_tsafe (by simpa using ht)

/-- A crash ends in a node that is down. -/
theorem crash_down {mode : LeaderMode} {addr : Address} {n n' : NodeSys T} {a : NAct T} (hc : crashStep a = true) (h : n.act addr a = some n') :
    n'.down = true := by
  cases a with
  | crash => cases h; rfl
  | arm x e cut =>
    obtain ⟨k, rfl⟩ : ∃ k, cut = some k := Option.isSome_iff_exists.1 hc
    simp only [NodeSys.act] at h
    split at h
    · cases h
    · split at h
      · cases h
      · cases h; rfl
  | start p e cut =>
    obtain ⟨k, rfl⟩ : ∃ k, cut = some k := Option.isSome_iff_exists.1 hc
    rcases (start_act h).2 with ⟨h, -⟩ | ⟨-, h, -⟩
    · exact h
    · cases h
  | _ => cases hc

omit hE in
/-- A node that is down can only be started. -/
theorem down_stays {addr : Address} {n n' : NodeSys T} {a : NAct T} (hd : n.down = true) (h : n.act addr a = some n') (hn : n'.down = false) :
    ∃ p e, a = .start p e none := by
  cases a with
  | start p e cut =>
    cases cut with
    | none => exact ⟨p, e, rfl⟩
    | some k =>
      rcases (start_act h).2 with ⟨h, -⟩ | ⟨-, h, -⟩
      · rw [h] at hn; cases hn
      · cases h
  | crash => cases h; cases hn
  | _ => simp [NodeSys.act, hd] at h

/-- The invariant along every history. -/
theorem inv_run {mode : LeaderMode} {addr : Address} {as : List (NAct T)} {n : NodeSys T} (h : (NodeSys.new addr).run addr as = some n)
    (hs : Along (SoundInput mode) addr (NodeSys.new addr) as) : n.down = false → Inv mode n := by
  refine along_inv (P := fun n => n.down = false → Inv mode n) ?_ as _ n (fun hn => by cases hn) hs h
  intro n a n' hi hs h hn
  cases hd : n.down with
  | true =>
    obtain ⟨p, e, rfl⟩ := down_stays hd h hn
    exact (start_up hE hs h).1
  | false =>
    cases hc : crashStep a with
    | true => rw [crash_down (mode := mode) hE hc h] at hn; cases hn
    | false => exact (inv_step hE (hi hd) hd hs hc h).1

end

end Overlord.NoPanic
