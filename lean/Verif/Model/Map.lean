import Mathlib.Data.List.Sort

/-!
# Collections

Model of the std collections the code uses: `HashMap`, `BTreeMap`, `HashSet` and slice sorting.

A map is an association list; a key occurs at most once in every map built by `insert` from the
empty map. The iteration order of a `HashMap`/`HashSet` is unspecified in Rust: every modelled
function that iterates over one takes a `Shuffle`, an arbitrary permuting function, so theorems
about it hold for every order. A `BTreeMap` is iterated in key order (`AMap.sortedKeys`).
-/

namespace Overlord

/-- Association list standing for a `HashMap<K, V>` or `BTreeMap<K, V>`. -/
abbrev AMap (K V : Type) := List (K × V)

namespace AMap
variable {K V : Type} [DecidableEq K]

/-- `get` of std maps. -/
def get? : AMap K V → K → Option V
  | [], _ => none
  | (k', v) :: m, k => if k' = k then some v else get? m k

/-- `insert` of std maps (overwrites). -/
def insert : AMap K V → K → V → AMap K V
  | [], k, v => [(k, v)]
  | (k', v') :: m, k, v => if k' = k then (k, v) :: m else (k', v') :: insert m k v

/-- `remove` of std maps. -/
def erase (m : AMap K V) (k : K) : AMap K V := m.filter (fun p => decide (p.1 ≠ k))

/-- `contains_key` of std maps. -/
def contains (m : AMap K V) (k : K) : Bool := (m.get? k).isSome

/-- `keys` of std maps, in representation order. -/
def keys (m : AMap K V) : List K := m.map Prod.fst

/-- `values` of std maps, in representation order. -/
def values (m : AMap K V) : List V := m.map Prod.snd

/-- `BTreeMap::split_off(&till)`: what remains are the keys `≥ till`. -/
def splitOff (m : AMap Nat V) (till : Nat) : AMap Nat V := m.filter (fun p => decide (till ≤ p.1))

end AMap

/-- Iteration order of hash maps and hash sets: any permutation. -/
structure Shuffle where
  run : {α : Type} → List α → List α
  perm : ∀ {α : Type} (l : List α), (run l).Perm l

/-- Representation order. -/
def Shuffle.same : Shuffle := ⟨fun l => l, fun _ => List.Perm.refl _⟩
/-- Reverse representation order. -/
def Shuffle.rev : Shuffle := ⟨fun l => l.reverse, fun _ => List.reverse_perm _⟩

/-- `HashSet::insert`. -/
def setInsert {K : Type} [DecidableEq K] (s : List K) (k : K) : List K :=
  if k ∈ s then s else s ++ [k]

/-- `Ord` of `Bytes` (`[u8]`): lexicographic. -/
def bytesLe : List UInt8 → List UInt8 → Bool
  | [], _ => true
  | _ :: _, [] => false
  | a :: as, b :: bs => if a.toNat < b.toNat then true else if a.toNat = b.toNat then bytesLe as bs else false

end Overlord
