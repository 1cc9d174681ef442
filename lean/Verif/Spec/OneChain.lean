import Mathlib.Data.List.Dedup
import Verif.Spec.Deliver

/-!
# Specification vocabulary for C73: the blocks an application has been given
-/

namespace Overlord.Spec

variable {T : Type}

/-- The blocks handed to the application for heights up to `K`: height and hash, oldest first, repetitions left out. -/
def appliedUpTo (K : Nat) (log : List (Effect T)) : List (Nat × Hash) :=
  (((callsOf log).map fun x => (x.1, x.2.proof.blockHash)).filter fun x => decide (x.1 ≤ K)).dedup

/-- The application has been given a block for height `k`. -/
def Applied (log : List (Effect T)) (k : Nat) : Prop := ∃ c, (k, c) ∈ callsOf log

end Overlord.Spec
