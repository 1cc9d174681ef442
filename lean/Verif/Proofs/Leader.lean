import Verif.Proofs.Authority
import Mathlib.NumberTheory.Bertrand
import Mathlib.Data.Nat.ModEq
import Mathlib.Order.Interval.Finset.Nat

set_option linter.unusedSimpArgs false

namespace Overlord
open Spec

theorem isPrime_iff (n : Nat) : isPrime n = true ↔ n.Prime := by
  simp only [isPrime, Bool.and_eq_true, decide_eq_true_eq, List.all_eq_true, List.mem_range,
    Bool.or_eq_true]
  rw [Nat.prime_def_lt']
  constructor
  · rintro ⟨h1, h2⟩
    refine ⟨h1, fun m hm hlt hd => ?_⟩
    rcases h2 m hlt with h | h
    · omega
    · exact h (Nat.mod_eq_zero_of_dvd hd)
  · rintro ⟨h1, h2⟩
    refine ⟨h1, fun m hlt => ?_⟩
    by_cases hm : m < 2
    · exact Or.inl hm
    · exact Or.inr (fun hd => h2 m (by omega) hlt (Nat.dvd_of_mod_eq_zero hd))

/-- The stride is 1 or the largest prime below the list length. -/
theorem leaderStride_spec (n : Nat) :
    (leaderStride n = 1 ∧ ∀ p, p < n → ¬ p.Prime) ∨
    ((leaderStride n).Prime ∧ leaderStride n < n ∧
      ∀ p, p < n → p.Prime → p ≤ leaderStride n) := by
  unfold leaderStride
  cases h : (primesLessThan n).getLast? with
  | none =>
    left
    rw [List.getLast?_eq_none_iff] at h
    refine ⟨rfl, fun p hp hpp => ?_⟩
    have : p ∈ primesLessThan n := by
      simp [primesLessThan, hp, (isPrime_iff p).2 hpp]
    rw [h] at this; simp at this
  | some q =>
    right
    have hq := List.mem_of_getLast? h
    simp only [primesLessThan, List.mem_filter, List.mem_range] at hq
    refine ⟨(isPrime_iff q).1 hq.2, hq.1, fun p hp hpp => ?_⟩
    have hm : p ∈ primesLessThan n := by
      simp [primesLessThan, hp, (isPrime_iff p).2 hpp]
    have hs : (primesLessThan n).Pairwise (· < ·) :=
      List.Pairwise.filter _ List.pairwise_lt_range
    simp only [Option.getD_some]
    obtain ⟨ys, hy⟩ := List.getLast?_eq_some_iff.1 h
    rw [hy] at hm hs
    rcases List.mem_append.1 hm with hm | hm
    · exact Nat.le_of_lt ((List.pairwise_append.1 hs).2.2 p hm q (by simp))
    · simp at hm; exact Nat.le_of_eq hm

theorem leaderStride_coprime (n : Nat) (hn : 0 < n) : Nat.Coprime (leaderStride n) n := by
  rcases leaderStride_spec n with ⟨h, _⟩ | ⟨hp, hlt, hmax⟩
  · rw [h]; exact Nat.coprime_one_left n
  · refine (Nat.Prime.coprime_iff_not_dvd hp).2 (fun hd => ?_)
    obtain ⟨k, hk⟩ := hd
    obtain ⟨q, hq, h1, h2⟩ := Nat.exists_prime_lt_and_le_two_mul (leaderStride n) hp.ne_zero
    have hk2 : 2 ≤ k := by
      rcases k with _ | _ | k
      · omega
      · omega
      · omega
    have h2p : 2 * leaderStride n ≤ n := by
      have h := Nat.mul_le_mul_left (leaderStride n) hk2
      rw [← hk] at h; omega
    have hqn : q < n := by
      rcases Nat.lt_or_ge q n with h | h
      · exact h
      · have : q = 2 * leaderStride n := by omega
        exfalso
        have hd2 : leaderStride n ∣ q := this ▸ Nat.dvd_mul_left _ _
        rcases (Nat.dvd_prime hq).1 hd2 with h | h
        · exact hp.one_lt.ne' h
        · omega
    have := hmax q hqn hq
    omega

/-- `n` consecutive multiples of a number coprime to `n` hit every residue exactly once. -/
theorem residue_unique (n p c : Nat) (hp : Nat.Coprime p n) (k : Nat) (hk : k < n) :
    ∃ i, i < n ∧ (c + i * p) % n = k ∧ ∀ j, j < n → (c + j * p) % n = k → j = i := by
  have hn : 0 < n := by omega
  -- injectivity
  have inj : ∀ i j, i < n → j < n → (c + i * p) % n = (c + j * p) % n → i = j := by
    intro i j hi hj h
    have h1 : (c + i * p) ≡ (c + j * p) [MOD n] := h
    have h2 : i * p ≡ j * p [MOD n] := Nat.ModEq.add_left_cancel' c h1
    have h3 : i ≡ j [MOD n] := Nat.ModEq.cancel_right_of_coprime (by
      rw [Nat.gcd_comm]; exact hp) h2
    have := h3
    unfold Nat.ModEq at this
    rwa [Nat.mod_eq_of_lt hi, Nat.mod_eq_of_lt hj] at this
  -- surjectivity by counting
  have surj : Finset.image (fun i => (c + i * p) % n) (Finset.range n) = Finset.range n := by
    apply Finset.eq_of_subset_of_card_le
    · intro x hx
      obtain ⟨i, _, rfl⟩ := Finset.mem_image.1 hx
      exact Finset.mem_range.2 (Nat.mod_lt _ hn)
    · rw [Finset.card_image_of_injOn]
      intro i hi j hj h
      exact inj i j (by simpa using hi) (by simpa using hj) h
  have : k ∈ Finset.image (fun i => (c + i * p) % n) (Finset.range n) := by
    rw [surj]; exact Finset.mem_range.2 hk
  obtain ⟨i, hi, he⟩ := Finset.mem_image.1 this
  have hi' := Finset.mem_range.1 hi
  exact ⟨i, hi', he, fun j hj h => inj j i hj hi' (h.trans he.symm)⟩

theorem rotationLeaderIndex_eq (h r n : Nat) (hn : 0 < n) (hn' : n < U32)
    (ho : h * leaderStride n + r < U64) :
    rotationLeaderIndex h r n = .ok ((h * leaderStride n + r) % n) := by
  simp only [rotationLeaderIndex, Nat.mod_eq_of_lt hn', Nat.mod_eq_of_lt ho]
  rw [if_neg (by omega)]

theorem getProposer_rotation (l : List Node) (h r : Nat) (hn : 0 < l.length) (hn' : l.length < U32)
    (ho : h * leaderStride l.length + r < U64) :
    (Authority.update l).getProposer .rotation h r =
      match ((sortNodes l).map Node.address)[(h * leaderStride l.length + r) % l.length]? with
      | some a => .ok a
      | none => .error .other := by
  have hl : (Authority.update l).address.length = l.length := update_len l
  simp only [Authority.getProposer, hl]
  rw [rotationLeaderIndex_eq h r _ hn hn' ho]
  simp only [bind, Except.bind, update_address]
  cases (List.map Node.address (sortNodes l))[(h * leaderStride l.length + r) % l.length]? <;> rfl

theorem nodup_getElem_inj {α : Type} {l : List α} (h : l.Nodup) {i j : Nat} {a : α}
    (hi : l[i]? = some a) (hj : l[j]? = some a) : i = j := by
  obtain ⟨h1, e1⟩ := List.getElem?_eq_some_iff.1 hi
  obtain ⟨h2, e2⟩ := List.getElem?_eq_some_iff.1 hj
  exact (List.Nodup.getElem_inj_iff h).1 (e1.trans e2.symm)

/-! ## Random leader -/

/-- Prefix sums. -/
theorem pickIndex_spec (tmp d : Nat) (ws : List Nat) (i acc : Nat)
    (hb : (acc + ws.sum) * tmp < U64) (ht : 0 < tmp) (hlo : acc * tmp ≤ d) :
    (d < (acc + ws.sum) * tmp →
      i ≤ pickIndex tmp d i acc ws ∧ pickIndex tmp d i acc ws < i + ws.length) ∧
    ∀ k, k < ws.length → d < (acc + ws.sum) * tmp →
      (pickIndex tmp d i acc ws = i + k ↔
        (acc + (ws.take k).sum) * tmp ≤ d ∧ d < (acc + (ws.take (k + 1)).sum) * tmp) := by
  induction ws generalizing i acc with
  | nil => simp; omega
  | cons w ws ih =>
    simp only [List.sum_cons] at hb
    have e : acc + (w + ws.sum) = acc + w + ws.sum := by omega
    rw [e] at hb
    have hle : acc + w ≤ (acc + w + ws.sum) := by omega
    have h1 : (acc + w) * tmp < U64 := Nat.lt_of_le_of_lt (Nat.mul_le_mul_right _ hle) hb
    have h0 : acc + w < U64 := Nat.lt_of_le_of_lt (Nat.le_mul_of_pos_right _ ht) h1
    simp only [pickIndex, Nat.mod_eq_of_lt h0, Nat.mod_eq_of_lt h1, List.sum_cons, List.length_cons,
      e]
    by_cases hd : d < (acc + w) * tmp
    · simp only [if_pos hd]
      refine ⟨fun _ => ⟨Nat.le_refl _, by omega⟩, fun k hk hlt => ?_⟩
      cases k with
      | zero => simp [hlo, hd]
      | succ k =>
        simp only [List.take_succ_cons, List.sum_cons]
        constructor
        · intro h; omega
        · rintro ⟨h, _⟩
          have : (acc + w) * tmp ≤ (acc + (w + (ws.take k).sum)) * tmp :=
            Nat.mul_le_mul_right _ (by omega)
          omega
    · simp only [if_neg hd]
      obtain ⟨ih1, ih2⟩ := ih (i + 1) (acc + w) hb (by omega)
      refine ⟨fun h => ?_, fun k hk hlt => ?_⟩
      · have := ih1 h
        omega
      · cases k with
        | zero =>
          have := ih1 hlt
          simp only [List.take_zero, List.sum_nil, List.take_succ_cons, List.sum_cons, Nat.add_zero]
          constructor
          · intro h; omega
          · rintro ⟨_, h⟩; omega
        | succ k =>
          have := ih2 k (by omega) hlt
          simp only [List.take_succ_cons, List.sum_cons]
          rw [Nat.add_assoc acc w, Nat.add_assoc acc w] at this
          rw [← this]
          omega

theorem foldl_mod_sum (s : List Node) (m acc : Nat) (h : acc + (s.map Node.proposeWeight).sum < m) :
    s.foldl (fun acc n => (acc + n.proposeWeight) % m) acc =
      acc + (s.map Node.proposeWeight).sum := by
  induction s generalizing acc with
  | nil => simp
  | cons n s ih =>
    simp only [List.foldl_cons, List.map_cons, List.sum_cons] at *
    rw [Nat.mod_eq_of_lt (by omega), ih _ (by omega)]
    omega

end Overlord
