import Verif.Model.Types
import Verif.Model.Map

/-!
# Specification vocabulary for authority lists

Validators are numbered by their rank in address order; bit `i` of a bitmap is the bit of value
`2^(7 - i mod 8)` of byte `i / 8`.
-/

namespace Overlord.Spec

/-- The validators have pairwise different addresses. -/
def Distinct (l : List Node) : Prop := (l.map Node.address).Nodup

/-- The weights are `u32` values and the list is not absurdly long (2^30 validators), so that sums of
weights times three are below 2^64. -/
def Sized (l : List Node) : Prop :=
  l.length ≤ 2 ^ 30 ∧ ∀ n ∈ l, n.voteWeight < 2 ^ 32 ∧ n.proposeWeight < 2 ^ 32

/-- Total vote weight. -/
def total (l : List Node) : Nat := (l.map Node.voteWeight).sum

/-- Vote weight of the validators whose address satisfies `p`. -/
def weight (l : List Node) (p : Address → Bool) : Nat :=
  ((l.filter (fun n => p n.address)).map Node.voteWeight).sum

/-- More than two thirds of the total weight. -/
def Quorum (l : List Node) (p : Address → Bool) : Prop := 3 * weight l p > 2 * total l

instance (l : List Node) (p : Address → Bool) : Decidable (Quorum l p) :=
  inferInstanceAs (Decidable (_ > _))

/-- How many validators have a smaller address. -/
def rank (l : List Node) (a : Address) : Nat :=
  (l.filter (fun n => bytesLe n.address a && !(n.address == a))).length

/-- Bit `i` of a bitmap; bits beyond the end are 0. -/
def bitAt (bitmap : Bytes) (i : Nat) : Bool :=
  match bitmap[i / 8]? with
  | some b => b.toNat / 2 ^ (7 - i % 8) % 2 = 1
  | none => false

/-- The validators a bitmap selects. -/
def selected (l : List Node) (bitmap : Bytes) (a : Address) : Bool := bitAt bitmap (rank l a)

/-- Total propose weight. -/
def totalPropose (l : List Node) : Nat := (l.map Node.proposeWeight).sum

end Overlord.Spec
