import Verif.Model.State

/-! Weakest preconditions for the handler monad. -/

set_option linter.unusedSimpArgs false

namespace Overlord
open M

variable {T α β : Type}

/-- Running `m` from `w` ends in `Q` (value) or in `E` (error). -/
def wp (m : M T α) (e : Env T) (w : World T) (Q : α → World T → Prop) (E : Err → World T → Prop) : Prop :=
  match m e w with
  | (.ok a, w') => Q a w'
  | (.error x, w') => E x w'

theorem wp_mono {m : M T α} {e : Env T} {w : World T} {Q Q' : α → World T → Prop}
    {E E' : Err → World T → Prop} (h : wp m e w Q E) (hQ : ∀ a w', Q a w' → Q' a w')
    (hE : ∀ x w', E x w' → E' x w') : wp m e w Q' E' := by
  unfold wp at *
  split
  · rename_i a w' h1; rw [h1] at h; exact hQ _ _ h
  · rename_i a w' h1; rw [h1] at h; exact hE _ _ h

theorem wp_bind (m : M T α) (f : α → M T β) (e : Env T) (w : World T) (Q : β → World T → Prop)
    (E : Err → World T → Prop) :
    wp (m >>= f) e w Q E ↔ wp m e w (fun a w' => wp (f a) e w' Q E) E := by
  show wp (M.bind m f) e w Q E ↔ _
  unfold wp M.bind
  split
  · rename_i h; split at h
    · rename_i h1; rw [h1]; simp only; rw [h]
    · simp at h
  · rename_i h; split at h
    · rename_i h1; rw [h1]; simp only; rw [h]
    · rename_i h1; rw [h1]; simp at h ⊢; rw [h.1, h.2]

theorem wp_pure (a : α) (e : Env T) (w : World T) (Q : α → World T → Prop) (E : Err → World T → Prop) :
    wp (pure a) e w Q E ↔ Q a w := Iff.rfl
theorem wp_mpure (a : α) (e : Env T) (w : World T) (Q : α → World T → Prop) (E : Err → World T → Prop) :
    wp (M.pure a) e w Q E ↔ Q a w := Iff.rfl
theorem wp_mbind (m : M T α) (f : α → M T β) (e : Env T) (w : World T) (Q : β → World T → Prop)
    (E : Err → World T → Prop) :
    wp (M.bind m f) e w Q E ↔ wp m e w (fun a w' => wp (f a) e w' Q E) E := wp_bind m f e w Q E
theorem wp_fail (x : Err) (e : Env T) (w : World T) (Q : α → World T → Prop) (E : Err → World T → Prop) :
    wp (fail x) e w Q E ↔ E x w := Iff.rfl
theorem wp_get (e : Env T) (w : World T) (Q : State T → World T → Prop) (E : Err → World T → Prop) :
    wp get e w Q E ↔ Q w.st w := Iff.rfl
theorem wp_ask (f : Env T → α) (e : Env T) (w : World T) (Q : α → World T → Prop)
    (E : Err → World T → Prop) : wp (ask f) e w Q E ↔ Q (f e) w := Iff.rfl
theorem wp_modify (f : State T → State T) (e : Env T) (w : World T) (Q : Unit → World T → Prop)
    (E : Err → World T → Prop) : wp (modify f) e w Q E ↔ Q () ⟨f w.st, w.log⟩ := Iff.rfl
theorem wp_emit (x : Effect T) (e : Env T) (w : World T) (Q : Unit → World T → Prop)
    (E : Err → World T → Prop) : wp (emit x) e w Q E ↔ Q () ⟨w.st, w.log ++ [x]⟩ := Iff.rfl
theorem wp_lift (x : Except Err α) (e : Env T) (w : World T) (Q : α → World T → Prop)
    (E : Err → World T → Prop) :
    wp (lift x) e w Q E ↔ (∀ a, x = .ok a → Q a w) ∧ (∀ y, x = .error y → E y w) := by
  unfold wp M.lift
  cases x <;> simp
theorem wp_some (x : Option α) (y : Err) (e : Env T) (w : World T) (Q : α → World T → Prop)
    (E : Err → World T → Prop) :
    wp (some! x y) e w Q E ↔ (∀ a, x = some a → Q a w) ∧ (x = none → E y w) := by
  unfold wp some!
  cases x <;> simp
theorem wp_ite {c : Prop} [Decidable c] (a b : M T α) (e : Env T) (w : World T)
    (Q : α → World T → Prop) (E : Err → World T → Prop) :
    wp (if c then a else b) e w Q E ↔ (c → wp a e w Q E) ∧ (¬ c → wp b e w Q E) := by
  by_cases h : c <;> simp [h]
theorem wp_logged (m : M T Unit) (e : Env T) (w : World T) (Q : Unit → World T → Prop)
    (E : Err → World T → Prop) :
    wp (logged m) e w Q E ↔
      wp m e w Q (fun x w' => (x = .panic → E .panic w') ∧ (x ≠ .panic → Q () w')) := by
  unfold wp logged
  split
  · rename_i h; split at h
    · rename_i h1; rw [h1]; cases h; exact Iff.rfl
    · cases h
    · rename_i h1; rw [h1]; cases h; rename_i hne
      constructor
      · intro h; exact ⟨fun hh => absurd hh hne, fun _ => h⟩
      · intro h; exact h.2 hne
  · rename_i h; split at h
    · cases h
    · rename_i h1; rw [h1]; cases h
      simp
    · cases h

theorem wp_exists {m : M T α} {e : Env T} {w : World T} {Q : α → World T → Prop}
    {E : Err → World T → Prop} (h : wp m e w Q E) :
    (∃ a, (m e w).1 = .ok a ∧ Q a (m e w).2) ∨ (∃ x, (m e w).1 = .error x ∧ E x (m e w).2) := by
  unfold wp at h
  split at h
  · rename_i h1; rw [h1]; exact .inl ⟨_, rfl, h⟩
  · rename_i h1; rw [h1]; exact .inr ⟨_, rfl, h⟩

/-- A postcondition that ignores the result. -/
theorem wp_post {m : M T α} {e : Env T} {w : World T} {P : World T → Prop}
    (h : wp m e w (fun _ => P) (fun _ => P)) : P (m e w).2 := by
  rcases wp_exists h with ⟨_, _, h⟩ | ⟨_, _, h⟩ <;> exact h

/-- The loop rule. -/
theorem wp_forEach {l : List α} {f : α → M T Unit} {e : Env T} {w : World T} {I : World T → Prop}
    (h0 : I w) (hs : ∀ a ∈ l, ∀ w, I w → wp (f a) e w (fun _ => I) (fun _ => I)) :
    wp (forEach l f) e w (fun _ => I) (fun _ => I) := by
  induction l generalizing w with
  | nil => exact h0
  | cons a l ih =>
    rw [forEach, wp_mbind]
    refine wp_mono (hs a (List.mem_cons_self ..) w h0) (fun _ w' hw => ?_) (fun _ _ h => h)
    exact ih hw fun b hb => hs b (List.mem_cons_of_mem _ hb)

end Overlord
