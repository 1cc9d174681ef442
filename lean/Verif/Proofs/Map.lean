import Verif.Model.Map

namespace Overlord
namespace AMap
variable {K V : Type} [DecidableEq K]

@[simp] theorem get?_nil (k : K) : AMap.get? ([] : AMap K V) k = none := rfl

theorem get?_insert (m : AMap K V) (k k' : K) (v : V) :
    (m.insert k v).get? k' = if k = k' then some v else m.get? k' := by
  induction m with
  | nil => simp [AMap.insert, AMap.get?]
  | cons p m ih =>
    obtain ⟨k0, v0⟩ := p
    simp only [AMap.insert]
    by_cases h : k0 = k
    · subst h
      by_cases h' : k0 = k' <;> simp [AMap.get?, h']
    · simp only [if_neg h, AMap.get?, ih]
      by_cases h' : k0 = k'
      · subst h'
        simp [Ne.symm h]
      · simp [h']

@[simp] theorem get?_insert_self (m : AMap K V) (k : K) (v : V) : (m.insert k v).get? k = some v := by
  simp [get?_insert]

theorem get?_erase (m : AMap K V) (k k' : K) :
    (m.erase k).get? k' = if k = k' then none else m.get? k' := by
  induction m with
  | nil => simp [AMap.erase]
  | cons p m ih =>
    obtain ⟨k0, v0⟩ := p
    simp only [AMap.erase, List.filter_cons] at *
    by_cases h : k0 = k
    · subst h
      simp only [ne_eq, not_true_eq_false, decide_false, Bool.false_eq_true, if_false]
      rw [ih]
      by_cases h' : k0 = k' <;> simp [AMap.get?, h']
    · simp only [ne_eq, h, not_false_eq_true, decide_true, if_true, AMap.get?]
      rw [ih]
      by_cases h' : k0 = k'
      · subst h'; simp [Ne.symm h]
      · simp [h']

theorem get?_splitOff (m : AMap Nat V) (till k : Nat) :
    (m.splitOff till).get? k = if till ≤ k then m.get? k else none := by
  induction m with
  | nil => simp [AMap.splitOff]
  | cons p m ih =>
    obtain ⟨k0, v0⟩ := p
    simp only [AMap.splitOff, List.filter_cons] at *
    by_cases h : till ≤ k0
    · simp only [h, decide_true, if_true, AMap.get?, ih]
      by_cases h' : k0 = k
      · subst h'; simp [h]
      · simp [h']
    · simp only [h, decide_false, Bool.false_eq_true, if_false, AMap.get?, ih]
      by_cases h' : k0 = k
      · subst h'; simp [h]
      · simp [h']

omit [DecidableEq K] in
theorem keys_cons (p : K × V) (m : AMap K V) : AMap.keys (p :: m) = p.1 :: m.keys := rfl

theorem keys_insert (m : AMap K V) (k : K) (v : V) :
    (m.insert k v).keys = if k ∈ m.keys then m.keys else m.keys ++ [k] := by
  induction m with
  | nil => simp [AMap.insert, AMap.keys]
  | cons p m ih =>
    obtain ⟨k0, v0⟩ := p
    by_cases h : k0 = k
    · subst h; simp [AMap.insert, keys_cons]
    · have : AMap.insert ((k0, v0) :: m) k v = (k0, v0) :: AMap.insert m k v := by
        simp [AMap.insert, h]
      rw [this, keys_cons, keys_cons, ih]
      by_cases hk : k ∈ AMap.keys m
      · rw [if_pos hk, if_pos (List.mem_cons_of_mem _ hk)]
      · rw [if_neg hk, if_neg (by simp [hk, Ne.symm h])]; rfl

theorem nodup_insert (m : AMap K V) (k : K) (v : V) (h : m.keys.Nodup) :
    (m.insert k v).keys.Nodup := by
  rw [keys_insert]
  split
  · exact h
  · rename_i hk
    exact List.nodup_append.2 ⟨h, by simp, by
      intro a ha b hb
      simp at hb
      subst hb
      intro hab; subst hab; exact hk ha⟩

theorem mem_keys_iff (m : AMap K V) (k : K) : k ∈ m.keys ↔ (m.get? k).isSome := by
  induction m with
  | nil => simp [AMap.keys]
  | cons p m ih =>
    obtain ⟨k0, v0⟩ := p
    simp only [AMap.keys, List.map_cons, List.mem_cons, AMap.get?] at *
    by_cases h : k0 = k
    · simp [h]
    · simp [h, Ne.symm h, ih]

theorem get?_of_mem (m : AMap K V) (h : m.keys.Nodup) {k : K} {v : V} (hm : (k, v) ∈ m) :
    m.get? k = some v := by
  induction m with
  | nil => simp at hm
  | cons p m ih =>
    obtain ⟨k0, v0⟩ := p
    simp only [AMap.keys, List.map_cons, List.nodup_cons] at h
    simp only [List.mem_cons, Prod.mk.injEq] at hm
    simp only [AMap.get?]
    rcases hm with ⟨rfl, rfl⟩ | hm
    · simp
    · have : k0 ≠ k := by
        intro hk; subst hk
        exact h.1 (List.mem_map.2 ⟨_, hm, rfl⟩)
      simp only [if_neg this]
      exact ih h.2 hm

theorem mem_of_get? (m : AMap K V) {k : K} {v : V} (h : m.get? k = some v) : (k, v) ∈ m := by
  induction m with
  | nil => simp at h
  | cons p m ih =>
    obtain ⟨k0, v0⟩ := p
    simp only [AMap.get?] at h
    by_cases hk : k0 = k
    · subst hk; simp at h; simp [h]
    · simp only [if_neg hk] at h
      exact List.mem_cons_of_mem _ (ih h)

theorem mem_iff_get? (m : AMap K V) (h : m.keys.Nodup) (k : K) (v : V) :
    (k, v) ∈ m ↔ m.get? k = some v := ⟨get?_of_mem m h, mem_of_get? m⟩

theorem nodup_erase (m : AMap K V) (k : K) (h : m.keys.Nodup) : (m.erase k).keys.Nodup :=
  (List.Sublist.map Prod.fst List.filter_sublist).nodup h

theorem nodup_splitOff (m : AMap Nat V) (k : Nat) (h : m.keys.Nodup) : (m.splitOff k).keys.Nodup :=
  (List.Sublist.map Prod.fst List.filter_sublist).nodup h

end AMap

theorem mem_setInsert {K : Type} [DecidableEq K] (s : List K) (k a : K) :
    a ∈ setInsert s k ↔ a ∈ s ∨ a = k := by
  unfold setInsert
  split
  · constructor
    · exact Or.inl
    · rintro (h | rfl) <;> assumption
  · simp

theorem nodup_setInsert {K : Type} [DecidableEq K] (s : List K) (k : K) (h : s.Nodup) :
    (setInsert s k).Nodup := by
  unfold setInsert
  split
  · exact h
  · rename_i hk
    exact List.nodup_append.2 ⟨h, by simp, by
      intro a ha b hb
      simp at hb
      subst hb
      intro hab; subst hab; exact hk ha⟩

theorem bytesLe_refl (a : List UInt8) : bytesLe a a = true := by
  induction a with
  | nil => rfl
  | cons x a ih => simp [bytesLe, ih]

theorem bytesLe_total (a b : List UInt8) : bytesLe a b = true ∨ bytesLe b a = true := by
  induction a generalizing b with
  | nil => simp [bytesLe]
  | cons x a ih =>
    cases b with
    | nil => simp [bytesLe]
    | cons y b =>
      simp only [bytesLe]
      rcases Nat.lt_trichotomy x.toNat y.toNat with h | h | h
      · simp [h]
      · simp only [h, Nat.lt_irrefl, if_false, if_true]; exact ih b
      · right; simp [h]

theorem bytesLe_trans {a b c : List UInt8} (h1 : bytesLe a b = true) (h2 : bytesLe b c = true) :
    bytesLe a c = true := by
  induction a generalizing b c with
  | nil => simp [bytesLe]
  | cons x a ih =>
    cases b with
    | nil => simp [bytesLe] at h1
    | cons y b =>
      cases c with
      | nil => simp [bytesLe] at h2
      | cons z c =>
        simp only [bytesLe] at *
        split at h1
        · split at h2
          · rw [if_pos (by omega)]
          · split at h2
            · rw [if_pos (by omega)]
            · simp at h2
        · split at h1
          · split at h2
            · rw [if_pos (by omega)]
            · split at h2
              · rw [if_neg (by omega), if_pos (by omega)]; exact ih h1 h2
              · simp at h2
          · simp at h1

theorem bytesLe_antisymm {a b : List UInt8} (h1 : bytesLe a b = true) (h2 : bytesLe b a = true) :
    a = b := by
  induction a generalizing b with
  | nil => cases b with
    | nil => rfl
    | cons y b => simp [bytesLe] at h2
  | cons x a ih =>
    cases b with
    | nil => simp [bytesLe] at h1
    | cons y b =>
      simp only [bytesLe] at *
      split at h1
      · rw [if_neg (by omega), if_neg (by omega)] at h2; simp at h2
      · split at h1
        · rename_i h
          rw [if_neg (by omega), if_pos h.symm] at h2
          rw [ih h1 h2, UInt8.toNat_inj.1 h]
        · simp at h1

end Overlord
