import Verif.Spec.Node

/-! # Specification vocabulary for C50: what was checked since the last start -/

namespace Overlord.Spec

variable {T : Type} [ContentCodec T] [DecidableEq T]

/-- In the schedule `as` of the node `addr`, since its last start, the application's `check_block` succeeded for hash `h`, with
content `c` at height `k`. -/
def CheckedSince (addr : Address) (as : List (NAct T)) (k : Nat) (h : Hash) (c : T) : Prop :=
  ∃ as1 i as2 n r, as = as1 ++ .checkDone i true :: as2 ∧ (∀ p e cut, .start p e cut ∉ as2) ∧
    (NodeSys.new addr).run addr as1 = some n ∧ n.checking[i]? = some (k, r, h, c)

end Overlord.Spec
