import Verif.Proofs.NodeTimer

/-! A node's voting state machine is never stuck, whatever the State sends it and however often (used for C54). -/

set_option linter.unusedSimpArgs false
set_option linter.unusedVariables false
set_option linter.unusedSectionVars false

namespace Overlord.Pace
open Spec

/-- A history of the state machine and the timer in which the State may send any number of triggers at a time. -/
structure GRun where
  st : Nat → TimerSys
  lab : Nat → Option TAct
  next : ∀ n a, lab n = some a → (st n).act a = some (st (n + 1))
  other : ∀ n, lab n = none → ∃ ts, st (n + 1) = { st n with trigQ := (st n).trigQ ++ ts }
  inv : ∀ n, TInv (st n)

/-- Every queue is served and every sleeping timeout expires and is delivered some day. -/
structure GFair (σ : GRun) : Prop where
  smr : ∀ n, (σ.st n).trigQ ≠ [] → ∃ m, n ≤ m ∧ σ.lab m = some .smr
  set : ∀ n, (σ.st n).evtQ ≠ [] → ∃ m, n ≤ m ∧ σ.lab m = some .set
  expire : ∀ n x, x ∈ (σ.st n).armed →
    ∃ m i, n ≤ m ∧ σ.lab m = some (.expire i) ∧ (σ.st m).armed[i]? = some x
  fire : ∀ n e, e ∈ (σ.st n).notify →
    ∃ m i, n ≤ m ∧ σ.lab m = some (.fire i) ∧ (σ.st m).notify[i]? = some e

/-- The machine acts (throws an event) at moment `m`. -/
def GActs (σ : GRun) (m : Nat) : Prop :=
  σ.lab m = some .smr ∧ ∃ t q, (σ.st m).trigQ = t :: q ∧ ((σ.st m).smr.onTrigger t).outs ≠ []

/-- What one moment does, if the machine does not act: the machine stays, and the queues move. -/
theorem gquiet_step (σ : GRun) (m : Nat) (hq : ¬ GActs σ m) :
    (σ.st (m + 1)).smr = (σ.st m).smr ∧
    ((σ.lab m = some .smr ∧ ∃ y, (σ.st m).trigQ = y :: (σ.st (m + 1)).trigQ) ∨
      (σ.lab m ≠ some .smr ∧ ∃ x, (σ.st (m + 1)).trigQ = (σ.st m).trigQ ++ x)) ∧
    ((σ.lab m = some .set ∧ ∃ e, (σ.st m).evtQ = e :: (σ.st (m + 1)).evtQ ∧
        (σ.st (m + 1)).timer = ((σ.st m).timer.setTimer e).1 ∧
        (σ.st (m + 1)).armed = (σ.st m).armed ++ ((σ.st m).timer.setTimer e).2.toList) ∨
      (σ.lab m ≠ some .set ∧ (σ.st (m + 1)).evtQ = (σ.st m).evtQ ∧
        (σ.st (m + 1)).timer = (σ.st m).timer)) := by
  cases ha : σ.lab m with
  | none =>
    obtain ⟨ts, hts⟩ := σ.other m ha
    rw [hts]
    simp
  | some a =>
    have hs := σ.next m a ha
    cases a with
    | input t =>
      simp only [TimerSys.act, Option.some.injEq] at hs
      rw [← hs]; simp
    | smr =>
      obtain ⟨t, q, htq, heq⟩ := smr_act_eq hs
      have hev := ev_case (σ.st m).smr t ((σ.inv m).trigs t (by simp [htq]))
      have ho : ((σ.st m).smr.onTrigger t).outs = [] := by
        refine Decidable.byContradiction fun hne => ?_
        exact hq ⟨ha, t, q, htq, hne⟩
      have hoe : ((σ.st m).smr.onTrigger t).events = [] := by simp [SmrOut.events, ho]
      have hn : ((σ.st m).smr.onTrigger t).next = (σ.st m).smr := by
        cases hev with
        | quiet hn _ => exact hn
        | _ => simp_all
      rw [heq]
      simp [hn, hoe, htq]
    | set =>
      obtain ⟨e, q, hqe, heq⟩ := set_act_eq hs
      rw [heq]
      simp [hqe]
    | expire i =>
      obtain ⟨x, _, heq⟩ := expire_act_eq hs
      rw [heq]; simp
    | fire i =>
      obtain ⟨x, _, heq⟩ := fire_act_eq hs
      rw [heq]; simp

theorem ggood_persists (σ : GRun) (m : Nat) (hq : ¬ GActs σ m)
    (hg : TGood (σ.st m)) : TGood (σ.st (m + 1)) := by
  obtain ⟨h1, _, h3⟩ := gquiet_step σ m hq
  intro hp
  rw [h1] at hp
  obtain ⟨g1, g2⟩ := hg hp
  rw [h1]
  rcases h3 with ⟨_, e, he, ht, _⟩ | ⟨_, he, ht⟩
  · have hn : ¬ IsNRI e := g2 e (by simp [he])
    rw [ht, setTimer_other _ _ hn]
    exact ⟨g1, fun x hx => g2 x (by rw [he]; simp [hx])⟩
  · rw [ht, he]; exact ⟨g1, g2⟩

theorem gnever_stuck (σ : GRun) (hf : GFair σ) (n : Nat)
    (hst : (σ.st n).smr.step ≠ .commit) : ∃ m, n ≤ m ∧ GActs σ m := by
  refine Classical.byContradiction fun hno => ?_
  have hq : ∀ m, n ≤ m → ¬ GActs σ m := fun m hm ha => hno ⟨m, hm, ha⟩
  have hinv := σ.inv
  have hsmr : ∀ d, (σ.st (n + d)).smr = (σ.st n).smr := by
    intro d
    induction d with
    | zero => rfl
    | succ d ih =>
      rw [← Nat.add_assoc, (gquiet_step σ (n + d) (hq _ (by omega))).1, ih]
  have hsmr' : ∀ m, n ≤ m → (σ.st m).smr = (σ.st n).smr := by
    intro m hm
    have := hsmr (m - n)
    rwa [show n + (m - n) = m by omega] at this
  have hgood : ∀ m, n ≤ m → TGood (σ.st m) → ∀ d, TGood (σ.st (m + d)) := by
    intro m hm hg d
    induction d with
    | zero => exact hg
    | succ d ih => exact ggood_persists σ (m + d) (hq _ (by omega)) ih
  -- a timeout in the channel of the machine is handled, and the machine acts
  have c4 : ∀ m t, n ≤ m → t ∈ (σ.st m).trigQ →
      ¬ IsTimeout t (σ.st n).smr.height (σ.st n).smr.round (σ.st n).smr.step := by
    intro m t hm ht hi
    obtain ⟨l1, l2, hl⟩ := List.append_of_mem ht
    obtain ⟨k, hk, hp, x, _, hqk⟩ := fifo_served (fun k => (σ.st k).trigQ)
      (fun k => σ.lab k = some .smr) (fun _ => True) n
      (by
        intro k hk
        rcases (gquiet_step σ k (hq k hk)).2.1 with ⟨h1, y, h2⟩ | ⟨h1, x, h2⟩
        · exact .inl ⟨h1, y, [], by simp, by simp [h2], by simp [h2]⟩
        · exact .inr ⟨h1, x, by simp, h2⟩)
      (fun k _ hne => hf.smr k hne) t l2 l1 m hm hl
    refine hq k (by omega) ⟨hp, t, _, hqk, ?_⟩
    have := timeout_acts (σ.st k).smr t (by rw [hsmr' k (by omega)]; exact hst)
      (by rw [hsmr' k (by omega)]; exact hi)
    intro hc
    exact this (by simp [SmrOut.events, hc])
  -- an expired timeout is delivered
  have c3 : ∀ m e, n ≤ m → backs e = some (σ.st n).smr.at3 → e ∈ (σ.st m).notify →
      ¬ TGood (σ.st m) := by
    intro m e hm hb he hg
    obtain ⟨k, i, hk, hp, hi⟩ := hf.fire m e he
    have hgk := hgood m hm hg (k - m)
    rw [show m + (k - m) = k by omega] at hgk
    obtain ⟨x, hx, heq⟩ := fire_act_eq (σ.next k _ hp)
    rw [hi] at hx
    simp only [Option.some.injEq] at hx
    subst hx
    have hsk := hsmr' k (by omega)
    obtain ⟨t, ht, hit⟩ := trigger_timeout (σ.st k).timer e _ _ _ hb
      (by have := (hinv k).th; rwa [hsk] at this)
      (fun hp' => by
        have h1 := hgk (by rw [hsk]; exact hp')
        rw [hsk] at h1
        omega)
    exact c4 (k + 1) t (by omega) (by rw [heq]; simp [ht]) hit
  -- a sleeping timeout expires
  have c2 : ∀ m e d, n ≤ m → backs e = some (σ.st n).smr.at3 → (e, d) ∈ (σ.st m).armed →
      ¬ TGood (σ.st m) := by
    intro m e d hm hb he hg
    obtain ⟨k, i, hk, hp, hi⟩ := hf.expire m (e, d) he
    have hgk := hgood m hm hg (k + 1 - m)
    rw [show m + (k + 1 - m) = k + 1 by omega] at hgk
    obtain ⟨x, hx, heq⟩ := expire_act_eq (σ.next k _ hp)
    rw [hi] at hx
    simp only [Option.some.injEq] at hx
    subst hx
    exact c3 (k + 1) e (by omega) hb (by rw [heq]; simp) hgk
  cases (hinv n).tok hst with
  | trig t ht hi => exact c4 n t (Nat.le_refl _) ht hi
  | armed e d hb ha hg => exact c2 n e d (Nat.le_refl _) hb ha hg
  | notify e hb ha hg => exact c3 n e (Nat.le_refl _) hb ha hg
  | evt e l1 l2 hb hq' hn =>
    obtain ⟨k, hk, hp, x, hx, hqk⟩ := fifo_served (fun k => (σ.st k).evtQ)
      (fun k => σ.lab k = some .set) (fun _ => False) n
      (by
        intro k hk
        rcases (gquiet_step σ k (hq k hk)).2.2 with ⟨h1, y, h2, _⟩ | ⟨h1, h2, _⟩
        · exact .inl ⟨h1, y, [], by simp, by simp [h2], by simp [h2]⟩
        · exact .inr ⟨h1, [], by simp, by simp [h2]⟩)
      (fun k _ hne => hf.set k hne) e l2 l1 n (Nat.le_refl _) hq'
    have hx0 : x = [] := by
      cases x with
      | nil => rfl
      | cons a x => exact absurd (hx a (by simp)) id
    subst hx0
    simp only [List.append_nil] at hqk
    rcases (gquiet_step σ k (hq k (by omega))).2.2 with ⟨_, y, h2, h3, h4⟩ | ⟨h1, _⟩
    · rw [hqk] at h2
      simp only [List.cons.injEq] at h2
      obtain ⟨rfl, h2⟩ := h2
      obtain ⟨d, hd⟩ := setTimer_arms (σ.st k).timer e _ hb
      refine c2 (k + 1) e d (by omega) hb (by rw [h4, hd]; simp) ?_
      intro hpr
      rw [hsmr' (k + 1) (by omega)] at hpr ⊢
      have hnri : IsNRI e := ⟨_, _, by rw [hb, ← hpr]; rfl⟩
      obtain ⟨h, r, a, b, c, d, f, rfl⟩ := (isNRI_iff e).1 hnri
      simp [backs, Smr.at3] at hb
      rw [h3, setTimer_nri, onNewRound_round, ← h2]
      exact ⟨hb.2.1, hn hpr⟩
    · exact h1 hp


end Overlord.Pace
