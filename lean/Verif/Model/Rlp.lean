import Verif.Model.Types

/-!
# The RLP crate

Model of the parts of crate `rlp` 0.5 that `/repo/src/codec.rs` uses (its source is not in `/repo`;
this file is part of the trusted base). Bytes are raw: headers, length-of-length, canonical-form checks
and slicing are modelled, also for malformed input.

* `Rlp::prototype`, `item_count`, `iter`, `at`, `val_at`, `list_at`: every decoder of codec.rs first asks
  for the prototype and then reads the items in increasing order, so the offset cache makes the first
  item be read inside the list payload and the later ones from the whole slice (`Rlp.items`).
* an iteration stops silently at the first malformed item;
* `usize` is 64 bits.
All errors of the crate are one error.
-/

namespace Overlord

/-- Result of decoding: an error, or a panic. -/
inductive DErr where
  | bad
  | panic
deriving DecidableEq, Repr

/-- The value of a big-endian byte string (the folds in `decode_usize` and `u64::decode`). -/
def ofBE (l : Bytes) : Nat := l.foldl (fun acc b => acc * 256 + b.toNat) 0

/-- Minimal big-endian byte string of `n`, at most `k` bytes. -/
def beN : Nat → Nat → Bytes
  | 0, _ => []
  | k + 1, n => if n = 0 then [] else beN k (n / 256) ++ [UInt8.ofNat (n % 256)]

/-- Big-endian bytes without leading zeros of a `u64`/`usize`. -/
def be (n : Nat) : Bytes := beN 8 n

/-- Header of a string (`base = 0x80`) or list (`base = 0xc0`) of `len` payload bytes:
`BasicEncoder::encode_value` / `insert_list_payload`. -/
def rlpHeader (base len : Nat) : Bytes :=
  if len ≤ 55 then [UInt8.ofNat (base + len)]
  else UInt8.ofNat (base + 55 + (be len).length) :: be len

/-- `encode_value`: a single byte below 0x80 is its own encoding. -/
def encStr (s : Bytes) : Bytes :=
  match s with
  | [b] => if b.toNat < 0x80 then [b] else rlpHeader 0x80 1 ++ [b]
  | _ => rlpHeader 0x80 s.length ++ s

/-- `begin_list(n)` followed by `n` appended items. -/
def encList (items : List Bytes) : Bytes :=
  rlpHeader 0xc0 items.flatten.length ++ items.flatten

/-- `Encodable` for `u8`, `u32`, `u64`. -/
def encInt (n : Nat) : Bytes := encStr (be n)

/-- `Encodable` for `Option<T>`: a list of no or one item. -/
def encOption (o : Option Bytes) : Bytes := encList o.toList

/-- `calculate_payload_info` -/
def calcPayload (tl : Bytes) (n : Nat) : Option (Nat × Nat) :=
  match tl with
  | [] => none
  | b :: _ =>
    if b = 0 then none
    else if tl.length < n then none
    else
      let v := ofBE (tl.take n)
      if v ≤ 55 then none else some (1 + n, v)

/-- `PayloadInfo::from`: header length and value length. -/
def payloadInfo0 (bs : Bytes) : Option (Nat × Nat) :=
  match bs with
  | [] => none
  | b :: tl =>
    let l := b.toNat
    if l ≤ 0x7f then some (0, 1)
    else if l ≤ 0xb7 then some (1, l - 0x80)
    else if l ≤ 0xbf then calcPayload tl (l - 0xb7)
    else if l ≤ 0xf7 then some (1, l - 0xc0)
    else calcPayload tl (l - 0xf7)

/-- `BasicDecoder::payload_info`: the item must fit. -/
def payloadInfo (bs : Bytes) : Option (Nat × Nat) :=
  match payloadInfo0 bs with
  | none => none
  | some (h, v) => if h + v < U64 ∧ h + v ≤ bs.length then some (h, v) else none

/-- Successive items of a byte string, up to the first malformed one. `fuel` bounds their number (each
has at least one byte). -/
def greedy : Nat → Bytes → List Bytes
  | 0, _ => []
  | fuel + 1, bs =>
    match payloadInfo bs with
    | none => []
    | some (h, v) => bs.take (h + v) :: greedy fuel (bs.drop (h + v))

/-- `is_list` -/
def isList (bs : Bytes) : Bool :=
  match bs with
  | [] => false
  | b :: _ => decide (0xc0 ≤ b.toNat)

/-- The items seen by `prototype`/`item_count` and by `val_at` in increasing order. -/
def rlpItems (bs : Bytes) : List Bytes :=
  match payloadInfo bs with
  | none => []
  | some (h, v) =>
    let p := (bs.take (h + v)).drop h
    match payloadInfo p with
    | none => []
    | some (h1, v1) => p.take (h1 + v1) :: greedy bs.length (bs.drop (h + (h1 + v1)))

/-- `r.prototype()? == Prototype::List(n)`, then the items. -/
def listOf (n : Nat) (bs : Bytes) : Except DErr (List Bytes) :=
  if isList bs ∧ (rlpItems bs).length = n then .ok (rlpItems bs) else .error .bad

/-- `decode_value`: the payload of a string. -/
def decStr (bs : Bytes) : Except DErr Bytes :=
  match bs with
  | [] => .error .bad
  | b :: tl =>
    let l := b.toNat
    if l ≤ 0x7f then .ok [b]
    else if l ≤ 0xb7 then
      if tl.length < l - 0x80 then .error .bad
      else
        let d := tl.take (l - 0x80)
        if l = 0x81 ∧ (d.headD 0).toNat < 0x80 then .error .bad else .ok d
    else if l ≤ 0xbf then
      let n := l - 0xb7
      if tl.length < n then .error .bad
      else if tl.headD 0 = 0 then .error .bad
      else
        let len := ofBE (tl.take n)
        if 1 + n + len < U64 ∧ len ≤ (tl.drop n).length then .ok ((tl.drop n).take len)
        else .error .bad
    else .error .bad

/-- `Decodable` for `u8` (`size = 1`), `u32` (4), `u64` (8). -/
def decInt (size : Nat) (bs : Bytes) : Except DErr Nat :=
  match decStr bs with
  | .error e => .error e
  | .ok d =>
    if d.length > size then .error .bad
    else if d.length ≠ 0 ∧ d.headD 0 = 0 then .error .bad
    else .ok (ofBE d)

/-- `Decodable` for `Option<T>`. -/
def decOption {α} (dec : Bytes → Except DErr α) (bs : Bytes) : Except DErr (Option α) :=
  if isList bs then
    match rlpItems bs with
    | [] => .ok none
    | [x] => (dec x).map some
    | _ => .error .bad
  else .error .bad

/-- `as_list` (of a string: no items, hence an empty list). -/
def decVec {α} (dec : Bytes → Except DErr α) (bs : Bytes) : Except DErr (List α) :=
  if isList bs then (rlpItems bs).mapM dec else .ok []

end Overlord
