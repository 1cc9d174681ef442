import Verif.Model.Codec

/-! Helper lemmas about RLP. -/

set_option linter.unusedSimpArgs false

namespace Overlord

theorem ofBE_append (l : Bytes) (b : UInt8) : ofBE (l ++ [b]) = ofBE l * 256 + b.toNat := by
  simp [ofBE, List.foldl_append]

theorem ofBE_beN (k n : Nat) (h : n < 256 ^ k) : ofBE (beN k n) = n := by
  induction k generalizing n with
  | zero => simp at h; subst h; rfl
  | succ k ih =>
    rw [beN]
    split
    · next h0 => subst h0; rfl
    · rw [ofBE_append, ih]
      · rw [UInt8.toNat_ofNat_of_lt' (by have := Nat.mod_lt n (by decide : 256 > 0); simpa using this)]
        omega
      · rw [Nat.pow_succ] at h
        exact Nat.div_lt_of_lt_mul (by omega)

theorem beN_length (k n : Nat) : (beN k n).length ≤ k := by
  induction k generalizing n with
  | zero => simp [beN]
  | succ k ih =>
    rw [beN]
    split
    · simp
    · have := ih (n / 256)
      simp; omega

theorem beN_ne_nil {k n : Nat} (hk : k ≠ 0) (hn : n ≠ 0) : beN k n ≠ [] := by
  cases k with
  | zero => exact absurd rfl hk
  | succ k => rw [beN]; simp [hn]

theorem beN_head {k n : Nat} (h : n < 256 ^ k) : ∀ b tl, beN k n = b :: tl → b ≠ 0 := by
  induction k generalizing n with
  | zero => intro b tl hb; simp [beN] at hb
  | succ k ih =>
    intro b tl hb
    rw [beN] at hb
    split at hb
    · simp at hb
    · rename_i hn
      have hd : n / 256 < 256 ^ k := by
        rw [Nat.pow_succ] at h
        exact Nat.div_lt_of_lt_mul (by omega)
      cases hq : beN k (n / 256) with
      | nil =>
        rw [hq] at hb
        simp at hb
        intro hb0
        rw [hb0] at hb
        have hz : n / 256 = 0 := by
          have := ofBE_beN k (n / 256) hd
          rw [hq] at this
          exact this.symm
        have h1 := congrArg UInt8.toNat hb.1
        rw [UInt8.toNat_ofNat_of_lt' (by have := Nat.mod_lt n (by decide : 256 > 0); simpa using this)] at h1
        simp at h1
        omega
      | cons c t =>
        rw [hq] at hb
        simp at hb
        exact hb.1 ▸ ih hd c t hq

theorem ofBE_be {n : Nat} (h : n < U64) : ofBE (be n) = n := ofBE_beN 8 n (by unfold U64 at h; omega)

theorem ofBE_cons_aux (l : Bytes) (a : Nat) :
    l.foldl (fun acc b => acc * 256 + b.toNat) a = a * 256 ^ l.length + ofBE l := by
  induction l generalizing a with
  | nil => simp [ofBE]
  | cons c l ih =>
    simp only [List.foldl_cons, List.length_cons, ofBE]
    rw [ih, ih (0 * 256 + c.toNat)]
    rw [Nat.pow_succ]
    simp only [Nat.zero_mul, Nat.zero_add, Nat.add_mul]
    rw [Nat.mul_assoc, Nat.mul_comm 256, Nat.add_assoc]

/-- The byte string of `n` is as short as the number of bytes `n` needs. -/
theorem beN_length_le {j k n : Nat} (h : n < 256 ^ j) : (beN k n).length ≤ j := by
  induction k generalizing n j with
  | zero => simp [beN]
  | succ k ih =>
    rw [beN]
    split
    · simp
    · rename_i hn
      cases j with
      | zero => simp at h; omega
      | succ j =>
        have hd : n / 256 < 256 ^ j := by
          rw [Nat.pow_succ] at h
          exact Nat.div_lt_of_lt_mul (by omega)
        have := ih hd
        simp; omega

/-- `b` is one complete RLP item. -/
def IsItem (b : Bytes) : Prop :=
  ∃ h v, h + v = b.length ∧ 0 < b.length ∧ ∀ rest, payloadInfo0 (b ++ rest) = some (h, v)

theorem toNat_ofNat {n : Nat} (h : n < 256) : (UInt8.ofNat n).toNat = n :=
  UInt8.toNat_ofNat_of_lt' (by simpa using h)

theorem calcPayload_be {len : Nat} (h1 : 55 < len) (h2 : len < U64) (rest : Bytes) :
    calcPayload (be len ++ rest) (be len).length = some (1 + (be len).length, len) := by
  have hne : be len ≠ [] := beN_ne_nil (by decide) (by omega)
  cases hb : be len with
  | nil => exact absurd hb hne
  | cons b tl =>
    have hb0 : b ≠ 0 := beN_head (k := 8) (n := len) (by unfold U64 at h2; omega) b tl hb
    have hof := ofBE_be h2
    rw [hb] at hof
    simp only [calcPayload, List.cons_append, if_neg hb0]
    rw [if_neg (by simp), ← List.cons_append, List.take_left, hof, if_neg (by omega)]

theorem header_info {base len : Nat} (hb : base = 0x80 ∨ base = 0xc0) (h : len < U64)
    (rest : Bytes) :
    payloadInfo0 (rlpHeader base len ++ rest) = some ((rlpHeader base len).length, len) := by
  unfold rlpHeader
  split
  · rename_i hl
    have : (UInt8.ofNat (base + len)).toNat = base + len := toNat_ofNat (by omega)
    simp only [List.cons_append, List.nil_append, payloadInfo0, this, List.length_singleton]
    rcases hb with rfl | rfl
    · rw [if_neg (by omega), if_pos (by omega)]; simp
    · rw [if_neg (by omega), if_neg (by omega), if_neg (by omega), if_pos (by omega)]; simp
  · rename_i hl
    have hlen : (be len).length ≤ 8 := beN_length 8 len
    have hne : be len ≠ [] := beN_ne_nil (by decide) (by omega)
    have hpos : 0 < (be len).length := List.length_pos_iff.2 hne
    have : (UInt8.ofNat (base + 55 + (be len).length)).toNat = base + 55 + (be len).length :=
      toNat_ofNat (by omega)
    simp only [List.cons_append, payloadInfo0, this, List.length_cons]
    rcases hb with rfl | rfl
    · rw [if_neg (by omega), if_neg (by omega), if_pos (by omega)]
      rw [show 0x80 + 55 + (be len).length - 0xb7 = (be len).length by omega]
      rw [calcPayload_be (by omega) h]
      simp; omega
    · rw [if_neg (by omega), if_neg (by omega), if_neg (by omega), if_neg (by omega)]
      rw [show 0xc0 + 55 + (be len).length - 0xf7 = (be len).length by omega]
      rw [calcPayload_be (by omega) h]
      simp; omega

theorem header_length_pos (base len : Nat) : 0 < (rlpHeader base len).length := by
  unfold rlpHeader; split <;> simp

theorem encStr_cases (s : Bytes) :
    (∃ b, s = [b] ∧ b.toNat < 0x80 ∧ encStr s = [b]) ∨
    ((∀ b, s = [b] → 0x80 ≤ b.toNat) ∧ encStr s = rlpHeader 0x80 s.length ++ s) := by
  unfold encStr
  split
  · rename_i b
    split
    · exact .inl ⟨b, rfl, by assumption, rfl⟩
    · exact .inr ⟨by intro c hc; simp at hc; subst hc; omega, rfl⟩
  · rename_i s h
    exact .inr ⟨by intro b hb; exact absurd hb (h b), rfl⟩

theorem encStr_isItem {s : Bytes} (h : (encStr s).length < U64) : IsItem (encStr s) := by
  rcases encStr_cases s with ⟨b, rfl, hb, he⟩ | ⟨_, he⟩
  · rw [he]
    exact ⟨0, 1, by simp, by simp, fun rest => by simp [payloadInfo0]; omega⟩
  · rw [he] at h ⊢
    refine ⟨(rlpHeader 0x80 s.length).length, s.length, by simp, ?_, fun rest => ?_⟩
    · have := header_length_pos 0x80 s.length
      simp; omega
    · rw [List.append_assoc]
      exact header_info (.inl rfl) (by simp at h; omega) _

theorem encList_isItem {l : List Bytes} (h : (encList l).length < U64) : IsItem (encList l) := by
  unfold encList at *
  refine ⟨(rlpHeader 0xc0 l.flatten.length).length, l.flatten.length, by rw [List.length_append], ?_, fun rest => ?_⟩
  · have := header_length_pos 0xc0 l.flatten.length
    rw [List.length_append]; omega
  · rw [List.append_assoc]
    exact header_info (.inr rfl) (by rw [List.length_append] at h; omega) _

theorem payloadInfo_item {b : Bytes} (hi : IsItem b) (hl : b.length < U64) (rest : Bytes) :
    ∃ h v, payloadInfo (b ++ rest) = some (h, v) ∧ h + v = b.length := by
  obtain ⟨h, v, h1, h2, h3⟩ := hi
  refine ⟨h, v, ?_, h1⟩
  unfold payloadInfo
  rw [h3 rest]
  simp only
  rw [if_pos]
  rw [h1]
  exact ⟨hl, by simp⟩

theorem payloadInfo_nil : payloadInfo [] = none := rfl

theorem greedy_flatten (l : List Bytes) (fuel : Nat) (hf : l.length ≤ fuel)
    (hi : ∀ b ∈ l, IsItem b ∧ b.length < U64) : greedy fuel l.flatten = l := by
  induction l generalizing fuel with
  | nil => cases fuel <;> simp [greedy, payloadInfo_nil]
  | cons b l ih =>
    cases fuel with
    | zero => simp at hf
    | succ fuel =>
      obtain ⟨hib, hlb⟩ := hi b (by simp)
      obtain ⟨h, v, h1, h2⟩ := payloadInfo_item hib hlb l.flatten
      rw [List.flatten_cons, greedy, h1]
      simp only [h2, List.take_left, List.drop_left]
      rw [ih fuel (by simp at hf; omega) (fun x hx => hi x (by simp [hx]))]

theorem mem_flatten_length {l : List Bytes} {b : Bytes} (h : b ∈ l) :
    b.length ≤ l.flatten.length := by
  induction l with
  | nil => simp at h
  | cons a l ih =>
    rw [List.flatten_cons, List.length_append]
    rcases List.mem_cons.1 h with rfl | h
    · omega
    · have := ih h; omega

theorem mem_encList_length {l : List Bytes} {b : Bytes} (h : b ∈ l) :
    b.length < (encList l).length := by
  have := mem_flatten_length h
  have := header_length_pos 0xc0 l.flatten.length
  rw [encList, List.length_append]; omega

theorem isList_encList (l : List Bytes) : isList (encList l) = true := by
  unfold encList rlpHeader
  split
  · simp only [List.cons_append, isList, decide_eq_true_eq]
    rw [toNat_ofNat (by omega)]; omega
  · have hlen : (be l.flatten.length).length ≤ 8 := beN_length 8 _
    simp only [List.cons_append, isList, decide_eq_true_eq]
    rw [toNat_ofNat (by omega)]; omega

theorem length_le_flatten {l : List Bytes} (hi : ∀ b ∈ l, 0 < b.length) :
    l.length ≤ l.flatten.length := by
  induction l with
  | nil => simp
  | cons a l ih =>
    rw [List.flatten_cons, List.length_append, List.length_cons]
    have := ih (fun b hb => hi b (by simp [hb]))
    have := hi a (by simp)
    omega

theorem rlpItems_encList {l : List Bytes} (h : (encList l).length < U64)
    (hi : ∀ b ∈ l, IsItem b) : rlpItems (encList l) = l := by
  have hall : ∀ b ∈ l, IsItem b ∧ b.length < U64 := fun b hb =>
    ⟨hi b hb, Nat.lt_trans (mem_encList_length hb) h⟩
  have hp : payloadInfo (encList l) =
      some ((rlpHeader 0xc0 l.flatten.length).length, l.flatten.length) := by
    unfold payloadInfo
    have h1 := header_info (base := 0xc0) (.inr rfl) (len := l.flatten.length)
      (by rw [encList, List.length_append] at h; omega) l.flatten
    rw [encList, h1]
    simp only
    rw [if_pos]
    rw [encList, List.length_append] at h
    rw [List.length_append]
    exact ⟨h, Nat.le_refl _⟩
  unfold rlpItems
  rw [hp]
  simp only
  have ht : ((encList l).take ((rlpHeader 0xc0 l.flatten.length).length + l.flatten.length)).drop
      (rlpHeader 0xc0 l.flatten.length).length = l.flatten := by
    rw [List.take_of_length_le (by rw [encList, List.length_append]; exact Nat.le_refl _), encList,
      List.drop_left]
  rw [ht]
  cases l with
  | nil => simp [payloadInfo_nil]
  | cons x l =>
    obtain ⟨hx, hlx⟩ := hall x (by simp)
    obtain ⟨h1, v1, g1, g2⟩ := payloadInfo_item hx hlx l.flatten
    rw [List.flatten_cons, g1]
    simp only [g2, List.take_left]
    congr 1
    rw [encList, List.flatten_cons, List.drop_append, List.drop_of_length_le (by omega)]
    simp only [List.nil_append, Nat.add_sub_cancel_left, List.drop_left]
    apply greedy_flatten
    · have h3 := length_le_flatten (l := l) (fun b hb => by
        obtain ⟨_, _, _, h, _⟩ := hi b (by simp [hb]); exact h)
      simp only [List.length_append]
      omega
    · exact fun b hb => hall b (by simp [hb])

theorem listOf_enc {l : List Bytes} {n : Nat} (h : (encList l).length < U64)
    (hi : ∀ b ∈ l, IsItem b) (hn : l.length = n) : listOf n (encList l) = .ok l := by
  unfold listOf
  rw [isList_encList, rlpItems_encList h hi]
  simp [hn]

theorem decStr_enc {s : Bytes} (h : (encStr s).length < U64) : decStr (encStr s) = .ok s := by
  rcases encStr_cases s with ⟨b, rfl, hb, he⟩ | ⟨hs, he⟩
  · rw [he]
    simp [decStr]; omega
  · rw [he] at h ⊢
    unfold rlpHeader at *
    split
    · rename_i hl
      have hn : (UInt8.ofNat (0x80 + s.length)).toNat = 0x80 + s.length := toNat_ofNat (by omega)
      simp only [List.cons_append, List.nil_append, decStr, hn]
      rw [if_neg (by omega), if_pos (by omega), if_neg (by omega)]
      rw [show 0x80 + s.length - 0x80 = s.length by omega, List.take_length]
      rw [if_neg]
      rintro ⟨h1, h2⟩
      have hl1 : s.length = 1 := by omega
      obtain ⟨b, rfl⟩ := List.length_eq_one_iff.1 hl1
      have := hs b rfl
      simp at h2
      omega
    · rename_i hl
      have hlen : (be s.length).length ≤ 8 := beN_length 8 _
      have hne : be s.length ≠ [] := beN_ne_nil (by decide) (by omega)
      have hpos : 0 < (be s.length).length := List.length_pos_iff.2 hne
      have hsl : s.length < U64 := by
        rw [if_neg hl] at h
        simp only [List.cons_append, List.length_cons, List.length_append] at h; omega
      have hn : (UInt8.ofNat (0x80 + 55 + (be s.length).length)).toNat =
          0x80 + 55 + (be s.length).length := toNat_ofNat (by omega)
      simp only [List.cons_append, decStr, hn]
      rw [if_neg (by omega), if_neg (by omega), if_pos (by omega)]
      rw [show 0x80 + 55 + (be s.length).length - 0xb7 = (be s.length).length by omega]
      rw [if_neg (by simp)]
      rw [if_neg]
      · rw [List.take_left, List.drop_left, ofBE_be hsl]
        rw [if_pos, List.take_length]
        refine ⟨?_, Nat.le_refl _⟩
        rw [if_neg hl] at h
        simp only [List.cons_append, List.length_cons, List.length_append] at h; omega
      · cases hb : be s.length with
        | nil => exact absurd hb hne
        | cons b tl =>
          have := beN_head (k := 8) (n := s.length) (by unfold U64 at hsl; omega) b tl hb
          simpa using this

theorem encStr_short {s : Bytes} (h : s.length ≤ 55) : (encStr s).length ≤ 56 := by
  rcases encStr_cases s with ⟨b, rfl, hb, he⟩ | ⟨hs, he⟩
  · rw [he]; simp
  · rw [he, rlpHeader, if_pos h]; simp; omega

theorem encInt_length (n : Nat) : (encInt n).length < U64 := by
  have h1 := encStr_short (s := be n) (by have := beN_length 8 n; unfold be; omega)
  unfold encInt U64; omega

theorem encInt_isItem (n : Nat) : IsItem (encInt n) := encStr_isItem (encInt_length n)

theorem decInt_enc {size n : Nat} (hs : size ≤ 8) (h : n < 256 ^ size) :
    decInt size (encInt n) = .ok n := by
  have h8 : n < U64 := by
    have : (256 : Nat) ^ size ≤ 256 ^ 8 := Nat.pow_le_pow_right (by decide) hs
    unfold U64
    have h2 : (256 : Nat) ^ 8 = 2 ^ 64 := by decide
    omega
  have hd : decStr (encInt n) = .ok (be n) := decStr_enc (encInt_length n)
  unfold decInt
  rw [hd]
  simp only
  rw [if_neg (by have := beN_length_le (j := size) (k := 8) h; unfold be; omega), if_neg, ofBE_be h8]
  rintro ⟨h1, h2⟩
  cases hb : be n with
  | nil => rw [hb] at h1; simp at h1
  | cons b tl =>
    have := beN_head (k := 8) (n := n) (by unfold U64 at h8; omega) b tl hb
    rw [hb] at h2
    simp at h2
    exact this h2

theorem decInt8_enc {n : Nat} (h : n < 2 ^ 64) : decInt 8 (encInt n) = .ok n :=
  decInt_enc (by decide) (by omega)
theorem decInt4_enc {n : Nat} (h : n < 2 ^ 32) : decInt 4 (encInt n) = .ok n :=
  decInt_enc (by decide) (by omega)
theorem decInt1_enc {n : Nat} (h : n < 256) : decInt 1 (encInt n) = .ok n :=
  decInt_enc (by decide) (by omega)

theorem decOption_none {α} (dec : Bytes → Except DErr α) :
    decOption dec (encOption none) = .ok none := by
  have h : rlpItems (encList []) = [] := by decide
  unfold decOption encOption
  rw [isList_encList]
  simp [h]

theorem decOption_some {α} {dec : Bytes → Except DErr α} {b : Bytes} {x : α}
    (h : (encOption (some b)).length < U64) (hi : IsItem b) (hd : dec b = .ok x) :
    decOption dec (encOption (some b)) = .ok (some x) := by
  unfold decOption encOption
  rw [isList_encList, rlpItems_encList (l := (some b).toList) h (by simpa using hi)]
  simp [hd, Except.map]

theorem mapM_ok {α β} (dec : α → Except DErr β) (enc : β → α) (l : List β)
    (h : ∀ x ∈ l, dec (enc x) = .ok x) : (l.map enc).mapM dec = .ok l := by
  induction l with
  | nil => rfl
  | cons a l ih =>
    rw [List.map_cons, List.mapM_cons, h a (by simp), ih (fun x hx => h x (by simp [hx]))]
    rfl

theorem decVec_enc {α} {dec : Bytes → Except DErr α} {enc : α → Bytes} {l : List α}
    (h : (encList (l.map enc)).length < U64)
    (hi : ∀ x ∈ l, IsItem (enc x)) (hd : ∀ x ∈ l, dec (enc x) = .ok x) :
    decVec dec (encList (l.map enc)) = .ok l := by
  unfold decVec
  rw [isList_encList, rlpItems_encList h (by
    intro b hb
    obtain ⟨x, hx, rfl⟩ := List.mem_map.1 hb
    exact hi x hx)]
  exact mapM_ok dec enc l hd

end Overlord
