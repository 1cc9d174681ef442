import Verif.Model.Types

/-!
# Hexadecimal serde helpers

Models `/repo/src/serde_hex.rs` and `/repo/src/serde_multi_hex.rs`. The functions `hex_encode` and
`hex_decode` come from crate `hummer` (not in `/repo`; trusted: two lower-case digits per byte, and the
inverse, which also accepts upper case). A serde data format is seen as the tree of values the two files
write and read (`SVal`).
-/

namespace Overlord

/-- Digit `n < 16` as a character code. -/
def hexDigit (n : Nat) : UInt8 := UInt8.ofNat (if n < 10 then 48 + n else 87 + n)

/-- Value of a character code. -/
def hexVal (c : UInt8) : Option Nat :=
  let c := c.toNat
  if 48 ≤ c ∧ c ≤ 57 then some (c - 48)
  else if 97 ≤ c ∧ c ≤ 102 then some (c - 87)
  else if 65 ≤ c ∧ c ≤ 70 then some (c - 55)
  else none

/-- `hummer::coding::hex_encode` (a string as its character codes). -/
def hexEncode (b : Bytes) : List UInt8 :=
  b.flatMap fun x => [hexDigit (x.toNat / 16), hexDigit (x.toNat % 16)]

/-- `hummer::coding::hex_decode` -/
def hexDecode : List UInt8 → Option Bytes
  | [] => some []
  | [_] => none
  | a :: b :: tl =>
    match hexVal a, hexVal b, hexDecode tl with
    | some x, some y, some r => some (UInt8.ofNat (x * 16 + y) :: r)
    | _, _, _ => none

/-- What a serde data format carries for these types. A struct is a list of named fields
(self-describing formats) or a sequence (formats that drop the names). -/
inductive SVal where
  | str (s : List UInt8)
  | seq (l : List SVal)
  | map (l : List (String × SVal))

/-- serde_hex.rs:8-13 `serialize` -/
def serHex (b : Bytes) : SVal := .str (hexEncode b)
/-- serde_hex.rs:18-23 `deserialize` -/
def deHex : SVal → Option Bytes
  | .str s => hexDecode s
  | _ => none

/-- How the format stores a struct with the single field `inner`. -/
def serInner (named : Bool) (v : SVal) : SVal := if named then .map [("inner", v)] else .seq [v]
/-- serde_multi_hex.rs:46 `VecTVisitor` (`visit_map` with one `inner`, unknown and duplicate fields are
errors; `visit_seq` takes the first element, a longer sequence is the format's error). -/
def deInner : SVal → Option SVal
  | .seq [v] => some v
  | .map [(k, v)] => if k = "inner" then some v else none
  | _ => none

/-- serde_multi_hex.rs:18-34 `serialize` -/
def serMultiHex (named : Bool) (l : List Bytes) : SVal :=
  serInner named (.seq (l.map fun b => serInner named (serHex b)))
/-- serde_multi_hex.rs:36-94 `deserialize` -/
def deMultiHex (v : SVal) : Option (List Bytes) :=
  match deInner v with
  | some (.seq l) => l.mapM fun w => (deInner w).bind deHex
  | _ => none

end Overlord
