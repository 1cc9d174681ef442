import Verif.Proofs.Timer

/-! Fair schedules of state machine and timer; the pace of the timer. -/

set_option linter.unusedSimpArgs false

namespace Overlord
open Spec

/-- In a queue that is served again and again every element is served some day. -/
theorem fifo_served {α} (q : Nat → List α) (pop : Nat → Prop) (P : α → Prop) (n : Nat)
    (hstep : ∀ k, n ≤ k → (pop k ∧ ∃ y x, (∀ z ∈ x, P z) ∧ q k ++ x = y :: q (k + 1)  ∧ q k ≠ []) ∨
      (¬ pop k ∧ ∃ x, (∀ z ∈ x, P z) ∧ q (k + 1) = q k ++ x))
    (hf : ∀ k, n ≤ k → q k ≠ [] → ∃ m, k ≤ m ∧ pop m) (t : α) (l2 : List α) :
    ∀ (l1 : List α) (m : Nat), n ≤ m → q m = l1 ++ t :: l2 →
      ∃ k, m ≤ k ∧ pop k ∧ ∃ x, (∀ z ∈ x, P z) ∧ q k = t :: (l2 ++ x) := by
  classical
  -- until the next pop the queue only grows
  have grow : ∀ m, n ≤ m → q m ≠ [] →
      ∃ k, m ≤ k ∧ pop k ∧ ∃ x, (∀ z ∈ x, P z) ∧ q k = q m ++ x := by
    intro m hm hne
    obtain ⟨k0, hk0, hp0⟩ := hf m hm hne
    have key : ∀ d m, n ≤ m → m + d = k0 →
        ∃ k, m ≤ k ∧ pop k ∧ ∃ x, (∀ z ∈ x, P z) ∧ q k = q m ++ x := by
      intro d
      induction d with
      | zero =>
        intro m hm hd
        refine ⟨m, Nat.le_refl _, ?_, [], by simp, by simp⟩
        have : m = k0 := by omega
        rw [this]; exact hp0
      | succ d ih =>
        intro m hm hd
        rcases hstep m hm with ⟨hp, _⟩ | ⟨hp, x, hx, hq⟩
        · exact ⟨m, Nat.le_refl _, hp, [], by simp, by simp⟩
        · obtain ⟨k, hk, hpk, y, hy, hqk⟩ := ih (m + 1) (by omega) (by omega)
          refine ⟨k, by omega, hpk, x ++ y, ?_, by rw [hqk, hq, List.append_assoc]⟩
          intro z hz
          rcases List.mem_append.1 hz with h | h
          · exact hx z h
          · exact hy z h
    exact key (k0 - m) m hm (by omega)
  intro l1
  induction l1 generalizing l2 with
  | nil =>
    intro m hm hq
    obtain ⟨k, hk, hp, x, hx, hqk⟩ := grow m hm (by simp [hq])
    exact ⟨k, hk, hp, x, hx, by rw [hqk, hq]; simp⟩
  | cons a l1 ih =>
    intro m hm hq
    obtain ⟨k, hk, hp, x, hx, hqk⟩ := grow m hm (by simp [hq])
    rcases hstep k (by omega) with ⟨_, y, x', hx', hpop, _⟩ | ⟨hnp, _⟩
    · rw [hqk, hq] at hpop
      simp at hpop
      obtain ⟨k', hk', hp', x'', hx'', hqk'⟩ := ih (l2 ++ (x ++ x')) (k + 1) (by omega) hpop.2.symm
      refine ⟨k', by omega, hp', x ++ x' ++ x'', ?_, by rw [hqk']; simp⟩
      intro z hz
      simp only [List.mem_append] at hz
      rcases hz with (h | h) | h
      · exact hx z h
      · exact hx' z h
      · exact hx'' z h
    · exact absurd hp hnp

theorem run_inv (σ : TRun) (h0 : TInv (σ.st 0)) : ∀ n, TInv (σ.st n) := by
  intro n
  induction n with
  | zero => exact h0
  | succ n ih =>
    cases ha : σ.act n with
    | none => rw [σ.idle n ha]; exact ih
    | some a => exact act_inv ih (σ.ok n a ha) (σ.next n a ha)

/-- The machine acts (throws an event) at moment `m`. -/
def ActsAt (σ : TRun) (m : Nat) : Prop :=
  σ.act m = some .smr ∧ ∃ t q, (σ.st m).trigQ = t :: q ∧ ((σ.st m).smr.onTrigger t).outs ≠ []

theorem smr_act_eq {s s' : TimerSys} (hs : s.act .smr = some s') :
    ∃ t q, s.trigQ = t :: q ∧
      s' = { s with smr := (s.smr.onTrigger t).next, trigQ := q,
                    evtQ := s.evtQ ++ (s.smr.onTrigger t).events } := by
  simp only [TimerSys.act] at hs
  split at hs
  · simp at hs
  rename_i t q hq
  refine ⟨t, q, hq, ?_⟩
  split at hs
  · simpa [SmrOut.events] using hs.symm
  · simpa [SmrOut.events] using hs.symm
  · simp at hs
  · simp at hs

theorem set_act_eq {s s' : TimerSys} (hs : s.act .set = some s') :
    ∃ e q, s.evtQ = e :: q ∧
      s' = { s with timer := (s.timer.setTimer e).1, evtQ := q,
                    armed := s.armed ++ (s.timer.setTimer e).2.toList } := by
  simp only [TimerSys.act] at hs
  split at hs
  · simp at hs
  · simp at hs
  rename_i e q hne hq
  exact ⟨e, q, hq, by simpa using hs.symm⟩

theorem expire_act_eq {s s' : TimerSys} {i} (hs : s.act (.expire i) = some s') :
    ∃ x, s.armed[i]? = some x ∧
      s' = { s with armed := s.armed.eraseIdx i, notify := s.notify ++ [x.1] } := by
  simp only [TimerSys.act] at hs
  split at hs
  · simp at hs
  · rename_i x hx
    exact ⟨x, hx, by simpa using hs.symm⟩

theorem fire_act_eq {s s' : TimerSys} {i} (hs : s.act (.fire i) = some s') :
    ∃ x, s.notify[i]? = some x ∧
      s' = { s with notify := s.notify.eraseIdx i, trigQ := s.trigQ ++ (s.timer.trigger x).toList } := by
  simp only [TimerSys.act] at hs
  split at hs
  · simp at hs
  · rename_i x hx
    exact ⟨x, hx, by simpa using hs.symm⟩

/-- What one moment does, if the machine does not act: the machine stays, and the queues move. -/
theorem quiet_step (σ : TRun) (m : Nat) (hi : TInv (σ.st m)) (hq : ¬ ActsAt σ m) :
    (σ.st (m + 1)).smr = (σ.st m).smr ∧
    ((σ.act m = some .smr ∧ ∃ y, (σ.st m).trigQ = y :: (σ.st (m + 1)).trigQ) ∨
      (σ.act m ≠ some .smr ∧ ∃ x, (σ.st (m + 1)).trigQ = (σ.st m).trigQ ++ x)) ∧
    ((σ.act m = some .set ∧ ∃ e, (σ.st m).evtQ = e :: (σ.st (m + 1)).evtQ ∧
        (σ.st (m + 1)).timer = ((σ.st m).timer.setTimer e).1 ∧
        (σ.st (m + 1)).armed = (σ.st m).armed ++ ((σ.st m).timer.setTimer e).2.toList) ∨
      (σ.act m ≠ some .set ∧ (σ.st (m + 1)).evtQ = (σ.st m).evtQ ∧
        (σ.st (m + 1)).timer = (σ.st m).timer)) := by
  cases ha : σ.act m with
  | none =>
    rw [σ.idle m ha]
    simp
  | some a =>
    have hs := σ.next m a ha
    cases a with
    | input t =>
      simp only [TimerSys.act, Option.some.injEq] at hs
      rw [← hs]; simp
    | smr =>
      obtain ⟨t, q, htq, heq⟩ := smr_act_eq hs
      have hev := ev_case (σ.st m).smr t (hi.trigs t (by simp [htq]))
      have ho : ((σ.st m).smr.onTrigger t).outs = [] := by
        refine Decidable.byContradiction fun hne => ?_
        exact hq ⟨ha, t, q, htq, hne⟩
      have hoe : ((σ.st m).smr.onTrigger t).events = [] := by simp [SmrOut.events, ho]
      have hn : ((σ.st m).smr.onTrigger t).next = (σ.st m).smr := by
        cases hev with
        | quiet hn _ => exact hn
        | _ => simp_all
      rw [heq]
      simp [hn, hoe, htq]
    | set =>
      obtain ⟨e, q, hqe, heq⟩ := set_act_eq hs
      rw [heq]
      simp [hqe]
    | expire i =>
      obtain ⟨x, _, heq⟩ := expire_act_eq hs
      rw [heq]; simp
    | fire i =>
      obtain ⟨x, _, heq⟩ := fire_act_eq hs
      rw [heq]; simp

theorem good_persists (σ : TRun) (m : Nat) (hi : TInv (σ.st m)) (hq : ¬ ActsAt σ m)
    (hg : TGood (σ.st m)) : TGood (σ.st (m + 1)) := by
  obtain ⟨h1, _, h3⟩ := quiet_step σ m hi hq
  intro hp
  rw [h1] at hp
  obtain ⟨g1, g2⟩ := hg hp
  rw [h1]
  rcases h3 with ⟨_, e, he, ht, _⟩ | ⟨_, he, ht⟩
  · have hn : ¬ IsNRI e := g2 e (by simp [he])
    rw [ht, setTimer_other _ _ hn]
    exact ⟨g1, fun x hx => g2 x (by rw [he]; simp [hx])⟩
  · rw [ht, he]; exact ⟨g1, g2⟩

theorem never_stuck (σ : TRun) (hf : Fair σ) (h0 : TInv (σ.st 0)) (n : Nat)
    (hst : (σ.st n).smr.step ≠ .commit) : ∃ m, n ≤ m ∧ ActsAt σ m := by
  refine Classical.byContradiction fun hno => ?_
  have hq : ∀ m, n ≤ m → ¬ ActsAt σ m := fun m hm ha => hno ⟨m, hm, ha⟩
  have hinv := run_inv σ h0
  have hsmr : ∀ d, (σ.st (n + d)).smr = (σ.st n).smr := by
    intro d
    induction d with
    | zero => rfl
    | succ d ih =>
      rw [← Nat.add_assoc, (quiet_step σ (n + d) (hinv _) (hq _ (by omega))).1, ih]
  have hsmr' : ∀ m, n ≤ m → (σ.st m).smr = (σ.st n).smr := by
    intro m hm
    have := hsmr (m - n)
    rwa [show n + (m - n) = m by omega] at this
  have hgood : ∀ m, n ≤ m → TGood (σ.st m) → ∀ d, TGood (σ.st (m + d)) := by
    intro m hm hg d
    induction d with
    | zero => exact hg
    | succ d ih => exact good_persists σ (m + d) (hinv _) (hq _ (by omega)) ih
  -- a timeout in the channel of the machine is handled, and the machine acts
  have c4 : ∀ m t, n ≤ m → t ∈ (σ.st m).trigQ →
      ¬ IsTimeout t (σ.st n).smr.height (σ.st n).smr.round (σ.st n).smr.step := by
    intro m t hm ht hi
    obtain ⟨l1, l2, hl⟩ := List.append_of_mem ht
    obtain ⟨k, hk, hp, x, _, hqk⟩ := fifo_served (fun k => (σ.st k).trigQ)
      (fun k => σ.act k = some .smr) (fun _ => True) n
      (by
        intro k hk
        rcases (quiet_step σ k (hinv _) (hq k hk)).2.1 with ⟨h1, y, h2⟩ | ⟨h1, x, h2⟩
        · exact .inl ⟨h1, y, [], by simp, by simp [h2], by simp [h2]⟩
        · exact .inr ⟨h1, x, by simp, h2⟩)
      (fun k _ hne => hf.smr k hne) t l2 l1 m hm hl
    refine hq k (by omega) ⟨hp, t, _, hqk, ?_⟩
    have := timeout_acts (σ.st k).smr t (by rw [hsmr' k (by omega)]; exact hst)
      (by rw [hsmr' k (by omega)]; exact hi)
    intro hc
    exact this (by simp [SmrOut.events, hc])
  -- an expired timeout is delivered
  have c3 : ∀ m e, n ≤ m → backs e = some (σ.st n).smr.at3 → e ∈ (σ.st m).notify →
      ¬ TGood (σ.st m) := by
    intro m e hm hb he hg
    obtain ⟨k, i, hk, hp, hi⟩ := hf.fire m e he
    have hgk := hgood m hm hg (k - m)
    rw [show m + (k - m) = k by omega] at hgk
    obtain ⟨x, hx, heq⟩ := fire_act_eq (σ.next k _ hp)
    rw [hi] at hx
    simp only [Option.some.injEq] at hx
    subst hx
    have hsk := hsmr' k (by omega)
    obtain ⟨t, ht, hit⟩ := trigger_timeout (σ.st k).timer e _ _ _ hb
      (by have := (hinv k).th; rwa [hsk] at this)
      (fun hp' => by
        have h1 := hgk (by rw [hsk]; exact hp')
        rw [hsk] at h1
        omega)
    exact c4 (k + 1) t (by omega) (by rw [heq]; simp [ht]) hit
  -- a sleeping timeout expires
  have c2 : ∀ m e d, n ≤ m → backs e = some (σ.st n).smr.at3 → (e, d) ∈ (σ.st m).armed →
      ¬ TGood (σ.st m) := by
    intro m e d hm hb he hg
    obtain ⟨k, i, hk, hp, hi⟩ := hf.expire m (e, d) he
    have hgk := hgood m hm hg (k + 1 - m)
    rw [show m + (k + 1 - m) = k + 1 by omega] at hgk
    obtain ⟨x, hx, heq⟩ := expire_act_eq (σ.next k _ hp)
    rw [hi] at hx
    simp only [Option.some.injEq] at hx
    subst hx
    exact c3 (k + 1) e (by omega) hb (by rw [heq]; simp) hgk
  cases (hinv n).tok hst with
  | trig t ht hi => exact c4 n t (Nat.le_refl _) ht hi
  | armed e d hb ha hg => exact c2 n e d (Nat.le_refl _) hb ha hg
  | notify e hb ha hg => exact c3 n e (Nat.le_refl _) hb ha hg
  | evt e l1 l2 hb hq' hn =>
    obtain ⟨k, hk, hp, x, hx, hqk⟩ := fifo_served (fun k => (σ.st k).evtQ)
      (fun k => σ.act k = some .set) (fun _ => False) n
      (by
        intro k hk
        rcases (quiet_step σ k (hinv _) (hq k hk)).2.2 with ⟨h1, y, h2, _⟩ | ⟨h1, h2, _⟩
        · exact .inl ⟨h1, y, [], by simp, by simp [h2], by simp [h2]⟩
        · exact .inr ⟨h1, [], by simp, by simp [h2]⟩)
      (fun k _ hne => hf.set k hne) e l2 l1 n (Nat.le_refl _) hq'
    have hx0 : x = [] := by
      cases x with
      | nil => rfl
      | cons a x => exact absurd (hx a (by simp)) id
    subst hx0
    simp only [List.append_nil] at hqk
    rcases (quiet_step σ k (hinv _) (hq k (by omega))).2.2 with ⟨_, y, h2, h3, h4⟩ | ⟨h1, _⟩
    · rw [hqk] at h2
      simp only [List.cons.injEq] at h2
      obtain ⟨rfl, h2⟩ := h2
      obtain ⟨d, hd⟩ := setTimer_arms (σ.st k).timer e _ hb
      refine c2 (k + 1) e d (by omega) hb (by rw [h4, hd]; simp) ?_
      intro hpr
      rw [hsmr' (k + 1) (by omega)] at hpr ⊢
      have hnri : IsNRI e := ⟨_, _, by rw [hb, ← hpr]; rfl⟩
      obtain ⟨h, r, a, b, c, d, f, rfl⟩ := (isNRI_iff e).1 hnri
      simp [backs, Smr.at3] at hb
      rw [h3, setTimer_nri, onNewRound_round, ← h2]
      exact ⟨hb.2.1, hn hpr⟩
    · exact h1 hp

/-! ### Pace: the timer's round follows the round of the events it arms -/

/-- Handling the events `l` with round `cur` in force leaves round `fin` in force, and each vote
event in `l` meets its own round. -/
def Paced : Nat → List SMREvent → Nat → Prop
  | cur, [], fin => cur = fin
  | cur, e :: l, fin =>
    match backs e with
    | some (_, r, .propose) => Paced r l fin
    | some (_, r, .prevote) => r = cur ∧ Paced cur l fin
    | some (_, r, .precommit) => r = cur ∧ Paced cur l fin
    | _ => Paced cur l fin

theorem paced_append {c m f : Nat} {l1 l2 : List SMREvent} (h1 : Paced c l1 m) (h2 : Paced m l2 f) :
    Paced c (l1 ++ l2) f := by
  induction l1 generalizing c with
  | nil => simp only [Paced] at h1; subst h1; exact h2
  | cons e l ih =>
    simp only [List.cons_append, Paced] at *
    split <;> rename_i heq <;> simp only [heq] at h1
    · exact ih h1
    · exact ⟨h1.1, ih h1.2⟩
    · exact ⟨h1.1, ih h1.2⟩
    · exact ih h1

theorem paced_step {s s' : TimerSys} {a : TAct} (hi : TInv s)
    (hs : s.act a = some s') (hp : Paced s.timer.round s.evtQ s.smr.round) :
    Paced s'.timer.round s'.evtQ s'.smr.round := by
  cases a with
  | input t =>
    simp only [TimerSys.act, Option.some.injEq] at hs
    subst hs; exact hp
  | smr =>
    obtain ⟨t, q, htq, rfl⟩ := smr_act_eq hs
    have hev := ev_case s.smr t (hi.trigs t (by simp [htq]))
    refine paced_append hp ?_
    cases hev with
    | quiet hn ho => simp [hn, ho, Paced]
    | commit h hst hh hr ho => simp [ho, hr, Paced, backs]
    | newRound e hb hst hh ho =>
      simp only [ho, Paced, hb, Smr.at3, hst]
    | skip n e hn hb hst hh ho => simp only [ho, Paced, hb, hn, Smr.at3, hst, and_self]
    | same e hb hst hst' hh hr ho =>
      simp only [ho, Paced, hb, Smr.at3, hr]
      cases hs : (s.smr.onTrigger t).next.step <;> simp_all
    | brake e hn hb ho => simp only [ho, Paced, hb, hn]
  | set =>
    obtain ⟨e, q, hqe, rfl⟩ := set_act_eq hs
    rw [hqe] at hp
    simp only [Paced] at hp
    cases e <;> simp only [backs] at hp
    · exact hp
    · simpa [Timer.setTimer] using hp.2
    · simpa [Timer.setTimer] using hp.2
    · simpa [Timer.setTimer] using hp
    · simpa [Timer.setTimer] using hp
    · simpa [Timer.setTimer] using hp
  | expire i =>
    obtain ⟨x, _, rfl⟩ := expire_act_eq hs
    exact hp
  | fire i =>
    obtain ⟨x, _, rfl⟩ := fire_act_eq hs
    exact hp

/-- No WAL record, or one at the propose step. -/
def WalAtPropose : Option SMRBase → Prop
  | none => True
  | some w => w.step = .propose

theorem WalAtPropose.ok {w} (h : WalAtPropose w) : WalOk w := by
  cases w with
  | none => trivial
  | some w => simp [WalAtPropose, WalOk] at *; simp [h]

theorem reach_paced {i c w s} (hw : WalAtPropose w) (h : TReach i c w s) :
    Paced s.timer.round s.evtQ s.smr.round := by
  induction h with
  | boot =>
    cases w with
    | none => simp [TimerSys.boot, Paced, Timer.new, Smr.init]
    | some w =>
      simp only [WalAtPropose] at hw
      obtain ⟨h, r, st, p⟩ := w
      subst hw
      simp [TimerSys.boot, Smr.handleWal, Smr.timerEventAfterWal, Out.event, backs, Paced]
  | step a hr ha hs ih => exact paced_step (reach_inv hw.ok hr) hs ih

end Overlord
