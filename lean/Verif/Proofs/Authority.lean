import Verif.Model.Authority
import Verif.Spec.Authority
import Verif.Proofs.Map

set_option linter.unusedSimpArgs false

namespace Overlord
open Spec

/-! ## Sorting -/

instance : Std.Total Node.le := ⟨fun _ _ => bytesLe_total _ _⟩
instance : IsTrans Node Node.le := ⟨fun _ _ _ => bytesLe_trans⟩
instance : Std.Total SignedVote.le := ⟨fun _ _ => bytesLe_total _ _⟩
instance : IsTrans SignedVote SignedVote.le := ⟨fun _ _ _ => bytesLe_trans⟩

theorem sortNodes_perm (l : List Node) : (sortNodes l).Perm l := List.perm_insertionSort _ _
theorem sortNodes_pairwise (l : List Node) : (sortNodes l).Pairwise Node.le :=
  List.pairwise_insertionSort _ _
theorem sortVotes_perm (l : List SignedVote) : (sortVotes l).Perm l := List.perm_insertionSort _ _
theorem sortVotes_pairwise (l : List SignedVote) : (sortVotes l).Pairwise SignedVote.le :=
  List.pairwise_insertionSort _ _

theorem distinct_perm {l l' : List Node} (h : Distinct l) (p : l'.Perm l) : Distinct l' :=
  (p.map Node.address).nodup_iff.2 h

theorem distinct_eq {l : List Node} (h : Distinct l) {a b : Node} (ha : a ∈ l) (hb : b ∈ l)
    (e : a.address = b.address) : a = b := List.inj_on_of_nodup_map h ha hb e

theorem sortNodes_eq_of_perm {l l' : List Node} (h : Distinct l) (p : l'.Perm l) :
    sortNodes l' = sortNodes l := by
  have hp : (sortNodes l').Perm (sortNodes l) :=
    (sortNodes_perm l').trans (p.trans (sortNodes_perm l).symm)
  refine hp.eq_of_pairwise ?_ (sortNodes_pairwise _) (sortNodes_pairwise _)
  intro a b ha hb h1 h2
  have ha' := p.subset ((sortNodes_perm l').subset ha)
  have hb' := (sortNodes_perm l).subset hb
  exact distinct_eq h ha' hb' (bytesLe_antisymm h1 h2)

/-! ## `update` -/

theorem foldl_push (s : List Node) (a : Authority) :
    (s.foldl Authority.push a).address = a.address ++ s.map Node.address ∧
    (s.foldl Authority.push a).proposeWeights = a.proposeWeights ++ s.map Node.proposeWeight ∧
    (s.foldl Authority.push a).proposeWeightSum % U64 =
      (a.proposeWeightSum + (s.map Node.proposeWeight).sum) % U64 ∧
    (s.foldl Authority.push a).voteWeightSum % U64 =
      (a.voteWeightSum + (s.map Node.voteWeight).sum) % U64 := by
  induction s generalizing a with
  | nil => simp
  | cons n s ih =>
    obtain ⟨h1, h2, h3, h4⟩ := ih (a.push n)
    simp only [List.foldl_cons, List.map_cons, List.sum_cons]
    refine ⟨by rw [h1]; simp [Authority.push], by rw [h2]; simp [Authority.push], ?_, ?_⟩
    · rw [h3]; simp only [Authority.push, U64]; omega
    · rw [h4]; simp only [Authority.push, U64]; omega

theorem foldl_push_sum_lt (s : List Node) (a : Authority) (h : a.proposeWeightSum < U64)
    (h' : a.voteWeightSum < U64) :
    (s.foldl Authority.push a).proposeWeightSum < U64 ∧
    (s.foldl Authority.push a).voteWeightSum < U64 := by
  induction s generalizing a with
  | nil => exact ⟨h, h'⟩
  | cons n s ih =>
    simp only [List.foldl_cons]
    refine ih _ ?_ ?_ <;> simp only [Authority.push, U64] <;> omega

theorem foldl_push_map (s : List Node) (a : Authority) (addr : Address)
    (h : addr ∉ s.map Node.address) :
    (s.foldl Authority.push a).voteWeightMap.get? addr = a.voteWeightMap.get? addr := by
  induction s generalizing a with
  | nil => rfl
  | cons n s ih =>
    simp only [List.map_cons, List.mem_cons, not_or] at h
    simp only [List.foldl_cons]
    rw [ih _ h.2]
    simp only [Authority.push, AMap.get?_insert]
    rw [if_neg (Ne.symm h.1)]

theorem foldl_push_map_mem (s : List Node) (hs : (s.map Node.address).Nodup) (a : Authority)
    (n : Node) (hn : n ∈ s) :
    (s.foldl Authority.push a).voteWeightMap.get? n.address = some n.voteWeight := by
  induction s generalizing a with
  | nil => simp at hn
  | cons m s ih =>
    simp only [List.map_cons, List.nodup_cons] at hs
    simp only [List.foldl_cons]
    rcases List.mem_cons.1 hn with rfl | hn
    · rw [foldl_push_map _ _ _ hs.1]
      simp [Authority.push]
    · exact ih hs.2 _ hn

theorem update_address (l : List Node) :
    (Authority.update l).address = (sortNodes l).map Node.address := by
  simp [Authority.update, (foldl_push _ _).1, Authority.new]

theorem update_proposeWeights (l : List Node) :
    (Authority.update l).proposeWeights = (sortNodes l).map Node.proposeWeight := by
  simp [Authority.update, (foldl_push _ _).2.1, Authority.new]

theorem sum_perm {l l' : List Nat} (h : l.Perm l') : l.sum = l'.sum := h.sum_nat

theorem update_voteWeightSum (l : List Node) :
    (Authority.update l).voteWeightSum = total l % U64 := by
  have h := (foldl_push (sortNodes l) Authority.new).2.2.2
  have h' := (foldl_push_sum_lt (sortNodes l) Authority.new (by decide) (by decide)).2
  rw [Nat.mod_eq_of_lt h'] at h
  rw [Authority.update, h]
  simp only [Authority.new, Nat.zero_add, total]
  rw [sum_perm ((sortNodes_perm l).map _)]

theorem update_proposeWeightSum (l : List Node) :
    (Authority.update l).proposeWeightSum = totalPropose l % U64 := by
  have h := (foldl_push (sortNodes l) Authority.new).2.2.1
  have h' := (foldl_push_sum_lt (sortNodes l) Authority.new (by decide) (by decide)).1
  rw [Nat.mod_eq_of_lt h'] at h
  rw [Authority.update, h]
  simp only [Authority.new, Nat.zero_add, totalPropose]
  rw [sum_perm ((sortNodes_perm l).map _)]

theorem update_weight (l : List Node) (h : Distinct l) (n : Node) (hn : n ∈ l) :
    (Authority.update l).voteWeightMap.get? n.address = some n.voteWeight :=
  foldl_push_map_mem _ (distinct_perm h (sortNodes_perm l)) _ _ ((sortNodes_perm l).symm.subset hn)

theorem update_weight_none (l : List Node) (a : Address) (ha : a ∉ l.map Node.address) :
    (Authority.update l).voteWeightMap.get? a = none := by
  rw [Authority.update, foldl_push_map]
  · rfl
  · intro h
    exact ha (((sortNodes_perm l).map _).subset h)

theorem update_contains (l : List Node) (a : Address) :
    (Authority.update l).contains a = true ↔ a ∈ l.map Node.address := by
  simp only [Authority.contains, update_address, List.contains_iff_mem]
  exact ((sortNodes_perm l).map _).mem_iff

theorem update_len (l : List Node) : (Authority.update l).len = l.length := by
  simp [Authority.len, update_address, (sortNodes_perm l).length_eq]

/-! ## Sums of weights -/

theorem sum_le_of_bound (l : List Nat) (b : Nat) (h : ∀ x ∈ l, x ≤ b) : l.sum ≤ l.length * b := by
  induction l with
  | nil => simp
  | cons x l ih =>
    have h1 := h x (by simp)
    have h2 := ih (fun y hy => h y (by simp [hy]))
    simp only [List.sum_cons, List.length_cons]
    rw [Nat.add_mul]; omega

theorem total_bound {l : List Node} (h : Sized l) : 3 * total l < U64 := by
  have := sum_le_of_bound (l.map Node.voteWeight) (2 ^ 32 - 1) (by
    intro x hx
    obtain ⟨n, hn, rfl⟩ := List.mem_map.1 hx
    have := (h.2 n hn).1
    omega)
  have h1 := h.1
  simp only [List.length_map] at this
  have h2 : l.length * (2 ^ 32 - 1) ≤ 2 ^ 30 * (2 ^ 32 - 1) := Nat.mul_le_mul_right _ h1
  simp only [total, U64]
  omega

theorem totalPropose_bound {l : List Node} (h : Sized l) : totalPropose l < U64 := by
  have := sum_le_of_bound (l.map Node.proposeWeight) (2 ^ 32 - 1) (by
    intro x hx
    obtain ⟨n, hn, rfl⟩ := List.mem_map.1 hx
    have := (h.2 n hn).2
    omega)
  have h1 := h.1
  simp only [List.length_map] at this
  have h2 : l.length * (2 ^ 32 - 1) ≤ 2 ^ 30 * (2 ^ 32 - 1) := Nat.mul_le_mul_right _ h1
  simp only [totalPropose, U64]
  omega

theorem weight_perm {l l' : List Node} (h : l.Perm l') (p : Address → Bool) :
    weight l p = weight l' p := sum_perm ((h.filter _).map _)

theorem total_perm {l l' : List Node} (h : l.Perm l') : total l = total l' := sum_perm (h.map _)

theorem weight_cons (n : Node) (l : List Node) (p : Address → Bool) :
    weight (n :: l) p = (if p n.address then n.voteWeight else 0) + weight l p := by
  simp only [weight, List.filter_cons]
  split <;> simp

theorem total_cons (n : Node) (l : List Node) : total (n :: l) = n.voteWeight + total l := by
  simp [total]

theorem weight_le_total (l : List Node) (p : Address → Bool) : weight l p ≤ total l := by
  induction l with
  | nil => simp [weight, total]
  | cons n l ih => rw [weight_cons, total_cons]; split <;> omega

theorem weight_mono (l : List Node) (p q : Address → Bool)
    (h : ∀ n ∈ l, p n.address = true → q n.address = true) : weight l p ≤ weight l q := by
  induction l with
  | nil => simp [weight]
  | cons n l ih =>
    have := ih (fun m hm => h m (by simp [hm]))
    have hn := h n (by simp)
    rw [weight_cons, weight_cons]
    by_cases hp : p n.address
    · simp [hp, hn hp]; omega
    · simp [hp]; omega

theorem weight_congr (l : List Node) (p q : Address → Bool)
    (h : ∀ n ∈ l, p n.address = q n.address) : weight l p = weight l q := by
  apply Nat.le_antisymm <;> apply weight_mono <;> intro n hn hp
  · rw [← h n hn]; exact hp
  · rw [h n hn]; exact hp

theorem weight_inter (l : List Node) (p q : Address → Bool) :
    weight l p + weight l q ≤ total l + weight l (fun a => p a && q a) := by
  induction l with
  | nil => simp [weight, total]
  | cons n l ih =>
    simp only [weight_cons, total_cons]
    cases p n.address <;> cases q n.address <;> simp <;> omega

theorem weight_split (l : List Node) (p q : Address → Bool) :
    weight l p = weight l (fun a => p a && q a) + weight l (fun a => p a && !q a) := by
  induction l with
  | nil => simp [weight]
  | cons n l ih =>
    simp only [weight_cons]
    cases p n.address <;> cases q n.address <;> simp <;> omega

theorem exists_of_weight_pos (l : List Node) (p : Address → Bool) (h : 0 < weight l p) :
    ∃ n ∈ l, p n.address = true := by
  induction l with
  | nil => simp [weight] at h
  | cons n l ih =>
    by_cases hp : p n.address
    · exact ⟨n, by simp, hp⟩
    · rw [weight_cons] at h
      simp only [hp, Bool.false_eq_true, if_false, Nat.zero_add] at h
      obtain ⟨m, hm, hpm⟩ := ih h
      exact ⟨m, by simp [hm], hpm⟩

/-! ## Bits -/

theorem bitsOfByte_get (b : UInt8) (i : Nat) (h : i < 8) :
    (bitsOfByte b)[i]? = some (b.toNat.testBit (7 - i)) := by
  simp [bitsOfByte, List.getElem?_map, List.getElem?_range h]

theorem bitsOfByte_length (b : UInt8) : (bitsOfByte b).length = 8 := by simp [bitsOfByte]

theorem bitsOfBytes_get (bs : Bytes) (i : Nat) :
    (bitsOfBytes bs)[i]? = (bs[i / 8]?).map (fun b => b.toNat.testBit (7 - i % 8)) := by
  induction bs generalizing i with
  | nil => simp [bitsOfBytes]
  | cons b bs ih =>
    simp only [bitsOfBytes, List.flatMap_cons] at *
    by_cases h : i < 8
    · rw [List.getElem?_append_left (by rw [bitsOfByte_length]; exact h), bitsOfByte_get _ _ h]
      have : i / 8 = 0 := by omega
      rw [this, Nat.mod_eq_of_lt h]; simp
    · rw [List.getElem?_append_right (by rw [bitsOfByte_length]; omega), bitsOfByte_length, ih]
      have h1 : i / 8 = (i - 8) / 8 + 1 := by omega
      have h2 : (i - 8) % 8 = i % 8 := by omega
      rw [h1, h2]; simp

theorem bitsOfBytes_bitAt (bs : Bytes) (i : Nat) : (bitsOfBytes bs).getD i false = bitAt bs i := by
  rw [List.getD_eq_getElem?_getD, bitsOfBytes_get, bitAt]
  cases bs[i / 8]? with
  | none => rfl
  | some b => simp [Nat.testBit_eq_decide_div_mod_eq]

theorem byteOfBits_bit (l : List Bool) (i : Nat) (h : i < 8) :
    (byteOfBits l).toNat.testBit (7 - i) = l.getD i false := by
  have hr : List.range 8 = [0, 1, 2, 3, 4, 5, 6, 7] := rfl
  have key : ∀ b0 b1 b2 b3 b4 b5 b6 b7 : Bool,
      let n := (UInt8.ofNat (2*(2*(2*(2*(2*(2*(2*(2*0+(if b0 then 1 else 0))+(if b1 then 1 else 0))+
        (if b2 then 1 else 0))+(if b3 then 1 else 0))+(if b4 then 1 else 0))+(if b5 then 1 else 0))+
        (if b6 then 1 else 0))+(if b7 then 1 else 0))).toNat
      n.testBit 7 = b0 ∧ n.testBit 6 = b1 ∧ n.testBit 5 = b2 ∧ n.testBit 4 = b3 ∧
      n.testBit 3 = b4 ∧ n.testBit 2 = b5 ∧ n.testBit 1 = b6 ∧ n.testBit 0 = b7 := by decide +kernel
  have k := key (l.getD 0 false) (l.getD 1 false) (l.getD 2 false) (l.getD 3 false)
    (l.getD 4 false) (l.getD 5 false) (l.getD 6 false) (l.getD 7 false)
  simp only [byteOfBits, hr, List.foldl_cons, List.foldl_nil]
  obtain ⟨k0, k1, k2, k3, k4, k5, k6, k7⟩ := k
  match i, h with
  | 0, _ => exact k0
  | 1, _ => exact k1
  | 2, _ => exact k2
  | 3, _ => exact k3
  | 4, _ => exact k4
  | 5, _ => exact k5
  | 6, _ => exact k6
  | 7, _ => exact k7

theorem bits_roundtrip (l : List Bool) (i : Nat) :
    (bitsOfBytes (bytesOfBits l)).getD i false = l.getD i false := by
  rw [List.getD_eq_getElem?_getD, bitsOfBytes_get]
  simp only [bytesOfBits, List.getElem?_map]
  by_cases h : i / 8 < (l.length + 7) / 8
  · rw [List.getElem?_range h]
    simp only [Option.map_some, Option.getD_some]
    rw [byteOfBits_bit _ _ (by omega)]
    simp only [List.getD_eq_getElem?_getD, List.getElem?_take, List.getElem?_drop]
    rw [if_pos (by omega)]
    have : 8 * (i / 8) + i % 8 = i := by omega
    rw [this]
  · rw [List.getElem?_eq_none (by simpa using Nat.not_lt.1 h)]
    have : l.length ≤ i := by omega
    simp [List.getD_eq_getElem?_getD, List.getElem?_eq_none this]

theorem zip_filter {α : Type} (bits : List Bool) (s : List α) (p : α → Bool)
    (h : ∀ i (hi : i < s.length), bits.getD i false = p s[i]) :
    ((bits.zip s).filter (fun q => q.1)).map Prod.snd = s.filter p := by
  induction s generalizing bits with
  | nil => simp
  | cons x s ih =>
    cases bits with
    | nil =>
      have : (x :: s).filter p = [] := by
        rw [List.filter_eq_nil_iff]
        intro a ha hp
        obtain ⟨i, hi, rfl⟩ := List.mem_iff_getElem.1 ha
        have := h i hi
        simp at this
        rw [hp] at this; simp at this
      rw [this]; simp
    | cons b bits =>
      have h0 := h 0 (by simp)
      simp at h0
      have ih' := ih bits (by
        intro i hi
        have := h (i + 1) (by simpa using hi)
        simpa using this)
      simp only [List.zip_cons_cons, List.filter_cons, h0]
      split
      · simp only [List.map_cons, ih']
      · exact ih'

/-! ## Ranks -/

theorem rank_perm {l l' : List Node} (h : l.Perm l') (a : Address) : rank l a = rank l' a :=
  (h.filter _).length_eq

theorem rank_sorted (s : List Node) (hs : s.Pairwise Node.le) (hd : (s.map Node.address).Nodup)
    (i : Nat) (hi : i < s.length) : rank s s[i].address = i := by
  induction s generalizing i with
  | nil => simp at hi
  | cons x s ih =>
    obtain ⟨h1, h2⟩ := List.pairwise_cons.1 hs
    simp only [List.map_cons, List.nodup_cons] at hd
    cases i with
    | zero =>
      simp only [List.getElem_cons_zero, rank]
      rw [List.length_eq_zero_iff, List.filter_eq_nil_iff]
      intro n hn hp
      simp only [Bool.and_eq_true, Bool.not_eq_true', beq_eq_false_iff_ne] at hp
      rcases List.mem_cons.1 hn with rfl | hn
      · exact hp.2 rfl
      · exact hp.2 (bytesLe_antisymm hp.1 (h1 n hn))
    | succ i =>
      simp only [List.getElem_cons_succ]
      have hi' : i < s.length := by simpa using hi
      have := ih h2 hd.2 i hi'
      simp only [rank, List.filter_cons] at *
      have hx : (bytesLe x.address s[i].address && !(x.address == s[i].address)) = true := by
        simp only [Bool.and_eq_true, Bool.not_eq_true', beq_eq_false_iff_ne]
        refine ⟨h1 _ (List.getElem_mem hi'), ?_⟩
        intro he
        exact hd.1 (he ▸ List.mem_map.2 ⟨_, List.getElem_mem hi', rfl⟩)
      rw [if_pos hx, List.length_cons, this]

theorem select_sorted (l : List Node) (h : Distinct l) (bm : Bytes) :
    (((bitsOfBytes bm).zip (sortNodes l)).filter (fun p => p.1)).map Prod.snd =
      (sortNodes l).filter (fun n => selected l bm n.address) := by
  apply zip_filter
  intro i hi
  rw [bitsOfBytes_bitAt, selected, rank_perm (sortNodes_perm l).symm,
    rank_sorted _ (sortNodes_pairwise l) (distinct_perm h (sortNodes_perm l)) i hi]

theorem zip_map_filter (bits : List Bool) (s : List Node) :
    ((bits.zip (s.map Node.address)).filter (fun p => p.1)).map Prod.snd =
      (((bits.zip s).filter (fun p => p.1)).map Prod.snd).map Node.address := by
  induction s generalizing bits with
  | nil => simp
  | cons x s ih =>
    cases bits with
    | nil => simp
    | cons b bits => cases b <;> simp [ih bits]

theorem getVoters_eq (l : List Node) (h : Distinct l) (bm : Bytes) :
    (Authority.update l).getVoters bm =
      .ok (((sortNodes l).filter (fun n => selected l bm n.address)).map Node.address) := by
  simp only [Authority.getVoters, update_address]
  rw [zip_map_filter, select_sorted l h]

theorem extractVoters_eq (l : List Node) (h : Distinct l) (bm : Bytes) :
    extractVoters l bm =
      .ok (((sortNodes l).filter (fun n => selected l bm n.address)).map Node.address) := by
  simp only [extractVoters]
  rw [← select_sorted l h]
  simp only [List.map_map]; rfl

theorem bitmapWeight_ok (a : Authority) (w : Address → Nat) (ps : List (Bool × Address)) (acc : Nat)
    (h : ∀ p ∈ ps, a.voteWeightMap.get? p.2 = some (w p.2))
    (hb : acc + (((ps.filter (fun p => p.1)).map Prod.snd).map w).sum < U64) :
    a.bitmapWeight acc ps = .ok (acc + (((ps.filter (fun p => p.1)).map Prod.snd).map w).sum) := by
  induction ps generalizing acc with
  | nil => simp [Authority.bitmapWeight]
  | cons p ps ih =>
    obtain ⟨b, addr⟩ := p
    have h0 := h (b, addr) (by simp)
    have hh : ∀ p ∈ ps, a.voteWeightMap.get? p.2 = some (w p.2) := fun p hp => h p (by simp [hp])
    cases b with
    | false =>
      simp only [Authority.bitmapWeight, List.filter_cons, Bool.false_eq_true, if_false] at *
      exact ih acc hh hb
    | true =>
      simp only [Authority.bitmapWeight, List.filter_cons, if_true, List.map_cons, List.sum_cons] at *
      rw [h0]
      simp only
      rw [Nat.mod_eq_of_lt (by omega), ih _ hh (by omega)]
      congr 1; omega

/-- Weight of an address in a list: of the first validator with that address. -/
def weightIn (l : List Node) (a : Address) : Nat :=
  match l.find? (fun n => n.address == a) with
  | some n => n.voteWeight
  | none => 0

theorem weightIn_mem (l : List Node) (h : Distinct l) (n : Node) (hn : n ∈ l) :
    weightIn l n.address = n.voteWeight := by
  unfold weightIn
  cases hf : l.find? (fun m => m.address == n.address) with
  | none =>
    rw [List.find?_eq_none] at hf
    have := hf n hn
    simp at this
  | some m =>
    have h1 := List.find?_some hf
    have h2 := List.mem_of_find?_eq_some hf
    simp only [beq_iff_eq] at h1
    simp only
    rw [distinct_eq h h2 hn h1]

theorem isAboveThreshold_eq (l : List Node) (h : Distinct l) (hz : Sized l) (bm : Bytes) :
    (Authority.update l).isAboveThreshold bm = .ok (decide (Quorum l (selected l bm))) := by
  have hb := total_bound hz
  have hw : ((((((bitsOfBytes bm).zip (Authority.update l).address).filter (fun p => p.1)).map
      Prod.snd).map (weightIn l)).sum) = weight l (selected l bm) := by
    rw [update_address, zip_map_filter, select_sorted l h,
      weight_perm (sortNodes_perm l).symm, weight, List.map_map]
    congr 1
    apply List.map_congr_left
    intro n hn
    have hn' := (sortNodes_perm l).subset (List.mem_filter.1 hn).1
    simp [weightIn_mem l h n hn']
  have hwt := weight_le_total l (selected l bm)
  have := bitmapWeight_ok (Authority.update l) (weightIn l)
    ((bitsOfBytes bm).zip (Authority.update l).address) 0 (by
      intro p hp
      have hp2 := (List.of_mem_zip hp).2
      rw [update_address] at hp2
      obtain ⟨n, hn, he⟩ := List.mem_map.1 hp2
      have hn' := (sortNodes_perm l).subset hn
      rw [← he, update_weight l h n hn', weightIn_mem l h n hn'])
    (by rw [hw]; omega)
  rw [Authority.isAboveThreshold, this, hw, update_voteWeightSum]
  simp only [Nat.zero_add, bind, Except.bind, pure, Except.pure, Quorum]
  rw [Nat.mod_eq_of_lt (a := weight l _ * 3) (by omega), Nat.mod_eq_of_lt (a := total l) (by omega),
    Nat.mod_eq_of_lt (a := total l * 2) (by omega)]
  congr 2
  rw [Nat.mul_comm, Nat.mul_comm (total l)]

end Overlord
