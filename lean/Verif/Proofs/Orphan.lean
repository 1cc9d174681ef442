import Verif.Model.Orphan
import Verif.Proofs.NoPanicNode

/-!
# What `run` leaves behind (C58)
-/

set_option linter.unusedSectionVars false
set_option linter.unusedVariables false

namespace Overlord.Orph
open NoPanic

variable {T : Type}

/-- Steps still possible on account of a trigger. -/
def tw (t : SMRTrigger) : Nat := if t.triggerType = .walInfo then 5 else 1

/-- Steps still possible. -/
def meas (o : Orphans T) : Nat :=
  (o.sys.trigQ.map tw).sum + 4 * o.sys.evtQ.length + 3 * o.sys.armed.length + 2 * o.sys.notify.length + o.verifying.length + o.checking.length

/-- Tasks that sleep or work, but do not end. -/
structure OInv (o : Orphans T) : Prop where
  smr : o.smrUp = true
  timer : o.timerUp = true
  tr : ∀ t ∈ o.sys.trigQ, TSafe t
  tv : ∀ x ∈ o.sys.evtQ, x ≠ .stop

theorem toTimer_small (m : Smr) (t : SMRTrigger) : (m.onTrigger t).toTimer.length * 4 + 1 ≤ tw t := by
  unfold tw
  split
  · rename_i h
    have : (m.onTrigger t).toTimer.length ≤ 1 := by
      unfold Smr.onTrigger
      rw [h]
      simp only
      split
      · unfold Smr.handleWal
        simp only
        split <;> simp [SmrOut.toTimer, List.takeWhile]
      · simp [SmrOut.toTimer]
    omega
  · rename_i h
    have : (m.onTrigger t).toTimer = [] := by
      unfold Smr.onTrigger
      split
      · unfold Smr.handleNewHeight; repeat' split
        all_goals simp [SmrOut.toTimer, List.takeWhile]
      · unfold Smr.handleProposal Smr.idle; repeat' split
        all_goals simp [SmrOut.toTimer, List.takeWhile]
      · unfold Smr.handlePrevote Smr.idle
        simp only
        repeat' split
        all_goals simp [SmrOut.toTimer, List.takeWhile]
      · unfold Smr.handlePrecommit Smr.idle; repeat' split
        all_goals simp [SmrOut.toTimer, List.takeWhile]
      · split
        · unfold Smr.handleBrakeTimeout Smr.idle; split <;> simp [SmrOut.toTimer, List.takeWhile]
        · simp [SmrOut.toTimer]
      · split
        · unfold Smr.handleContinueRound Smr.idle; split <;> simp [SmrOut.toTimer, List.takeWhile]
        · simp [SmrOut.toTimer]
      · rename_i h'; exact absurd h' h
      · simp [SmrOut.toTimer, List.takeWhile]
    rw [this]; simp

theorem toTimer_mem {o : SmrOut} {x : SMREvent} (h : x ∈ o.toTimer) : ∃ y ∈ o.outs, y.event = x := by
  obtain ⟨y, hy, rfl⟩ := List.mem_map.1 h
  exact ⟨y, (List.takeWhile_subset _) hy, rfl⟩

theorem trigger_tw {tm : Timer} {e : SMREvent} : ((tm.trigger e).toList.map tw).sum ≤ 1 := by
  cases h : tm.trigger e with
  | none => simp
  | some t =>
    have : t.triggerType ≠ .walInfo := by
      cases e <;> simp only [Timer.trigger] at h
      all_goals first
        | (split at h <;> simp only [Option.some.injEq, reduceCtorEq] at h; subst h; simp [timeoutTrigger])
        | cases h
    simp [tw, this]

theorem act_inv {o o' : Orphans T} {x : OAct} (I : OInv o) (h : o.act x = some o') : OInv o' ∧ meas o' < meas o := by
  cases x with
  | smr next =>
    simp only [Orphans.act, I.smr, I.timer, Bool.true_eq_false, if_false, if_true] at h
    split at h
    · cases h
    rename_i t q hq
    have ht := I.tr t (by rw [hq]; simp)
    obtain ⟨h1, h2, h3⟩ := ht o.sys.smr
    have hm := toTimer_small o.sys.smr t
    have key : o' = { o with sys := { o.sys with smr := next, trigQ := q, evtQ := o.sys.evtQ ++ (o.sys.smr.onTrigger t).toTimer } } := by
      split at h
      · cases h; simp [I.smr, I.timer]
      · cases h; simp [I.smr, I.timer]
      · rename_i hr; exact absurd hr h1
      · rename_i hr; exact absurd hr h2
    subst key
    refine ⟨⟨I.smr, I.timer, fun t' ht' => I.tr t' (by rw [hq]; exact List.mem_cons_of_mem _ ht'), fun x hx => ?_⟩, ?_⟩
    · rcases List.mem_append.1 hx with hx | hx
      · exact I.tv x hx
      · obtain ⟨y, hy, rfl⟩ := toTimer_mem hx
        exact h3 y hy
    · simp only [meas, hq, List.map_cons, List.sum_cons, List.length_append]; omega
  | set =>
    simp only [Orphans.act, I.smr, I.timer, Bool.true_eq_false, if_false, if_true] at h
    split at h
    · cases h
    · rename_i q hq; exact absurd rfl (I.tv .stop (by rw [hq]; simp))
    · rename_i e q _ hq
      simp only [Option.some.injEq] at h
      subst h
      refine ⟨⟨rfl, rfl, I.tr, fun x hx => I.tv x (by rw [hq]; exact List.mem_cons_of_mem _ hx)⟩, ?_⟩
      have : (o.sys.timer.setTimer e).2.toList.length ≤ 1 := by cases (o.sys.timer.setTimer e).2 <;> simp
      simp only [meas, hq, List.length_append, List.length_cons]; omega
  | expire i =>
    simp only [Orphans.act, I.timer, if_true] at h
    split at h
    · cases h
    rename_i e he
    simp only [Option.some.injEq] at h
    subst h
    refine ⟨⟨I.smr, rfl, I.tr, I.tv⟩, ?_⟩
    have hi : i < o.sys.armed.length := (List.getElem?_eq_some_iff.1 he).1
    simp only [meas, List.length_append, List.length_cons, List.length_nil, List.length_eraseIdx, hi, if_true]; omega
  | fire i =>
    simp only [Orphans.act, I.timer, I.smr, if_true, Bool.true_eq_false, if_false] at h
    split at h
    · cases h
    rename_i e he
    simp only [Option.some.injEq] at h
    subst h
    refine ⟨⟨rfl, rfl, fun t ht => ?_, I.tv⟩, ?_⟩
    · rcases List.mem_append.1 ht with ht | ht
      · exact I.tr t ht
      · exact timer_tsafe (Option.mem_toList.1 ht)
    · have hi : i < o.sys.notify.length := (List.getElem?_eq_some_iff.1 he).1
      have := trigger_tw (tm := o.sys.timer) (e := e)
      simp only [meas, List.map_append, List.sum_append, List.length_eraseIdx, hi, if_true]; omega
  | verifyDone i =>
    simp only [Orphans.act] at h
    split at h
    · rename_i hi
      cases h
      refine ⟨⟨I.smr, I.timer, I.tr, I.tv⟩, ?_⟩
      simp only [meas, List.length_eraseIdx, hi, if_true]; omega
    · cases h
  | checkDone i =>
    simp only [Orphans.act] at h
    split at h
    · rename_i hi
      cases h
      refine ⟨⟨I.smr, I.timer, I.tr, I.tv⟩, ?_⟩
      simp only [meas, List.length_eraseIdx, hi, if_true]; omega
    · cases h

theorem run_inv : ∀ (xs : List OAct) {o o' : Orphans T}, OInv o → o.run xs = some o' → OInv o' ∧ xs.length + meas o' ≤ meas o := by
  intro xs
  induction xs with
  | nil => intro o o' I h; cases h; exact ⟨I, by simp⟩
  | cons x xs ih =>
    intro o o' I h
    simp only [Orphans.run] at h
    split at h
    · cases h
    rename_i o1 h1
    obtain ⟨I1, m1⟩ := act_inv I h1
    obtain ⟨I2, m2⟩ := ih I1 h
    refine ⟨I2, ?_⟩
    simp only [List.length_cons]; omega

/-- Unless nothing is left to do, a step is possible. -/
theorem stuck_empty {o : Orphans T} (I : OInv o) (h : ∀ x, o.act x = none) :
    o.sys.trigQ = [] ∧ o.sys.evtQ = [] ∧ o.sys.armed = [] ∧ o.sys.notify = [] ∧ o.verifying = [] ∧ o.checking = [] := by
  refine ⟨?_, ?_, ?_, ?_, ?_, ?_⟩
  · have h1 := h (.smr o.sys.smr)
    simp only [Orphans.act, I.smr, I.timer, Bool.true_eq_false, if_false, if_true] at h1
    split at h1
    · assumption
    · split at h1 <;> cases h1
  · have h1 := h .set
    simp only [Orphans.act, I.smr, I.timer, Bool.true_eq_false, if_false, if_true] at h1
    split at h1
    · assumption
    · cases h1
    · cases h1
  · have h1 := h (.expire 0)
    simp only [Orphans.act] at h1
    cases ha : o.sys.armed with
    | nil => rfl
    | cons a l => simp [ha] at h1
  · have h1 := h (.fire 0)
    simp only [Orphans.act, I.timer] at h1
    cases ha : o.sys.notify with
    | nil => rfl
    | cons a l => simp [ha] at h1
  · have h1 := h (.verifyDone 0)
    cases ha : o.verifying with
    | nil => rfl
    | cons a l => simp [Orphans.act, ha] at h1
  · have h1 := h (.checkDone 0)
    cases ha : o.checking with
    | nil => rfl
    | cons a l => simp [Orphans.act, ha] at h1

theorem of_inv {mode : LeaderMode} {n : NodeSys T} (I : NoPanic.Inv mode n) : OInv (Orphans.of n) := ⟨rfl, rfl, I.tr, I.tv⟩

end Overlord.Orph
