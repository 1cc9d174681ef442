import Verif.Spec.Node
import Verif.Spec.Deliver
import Verif.Spec.OneChain
import Mathlib.Data.List.Dedup

/-!
# Specification vocabulary for C75: no height is left out

Only the heights of the calls of the application's `commit`, and what the application, the storage and the operator do.
-/

namespace Overlord.Spec

variable {T : Type}

/-- The heights of the blocks handed to the application, oldest first, repetitions left out. -/
def heightsOf (log : List (Effect T)) : List Nat := ((callsOf log).map Prod.fst).dedup

/-- The blocks handed to the application, oldest first, repetitions left out: height and hash. -/
def blockSeq (log : List (Effect T)) : List (Nat × Hash) :=
  ((callsOf log).map fun x => (x.1, x.2.proof.blockHash)).dedup

/-- The application answers the commit of a height with the status of the next one (or fails). -/
def NextHeight (e : Env T) : Prop := ∀ k c st, e.commit k c = some st → st.height = k + 1

section
variable [ContentCodec T]

/-- The life of a node that starts at height `h0`: a start at which nothing has been saved is given this height, the storage returns
the record saved last, the application goes from height to height, and no status from outside takes the node to a
later height. -/
def StartsAt (h0 : Nat) (addr : Address) (n : NodeSys T) (a : NAct T) : Prop :=
  StartOk addr n a ∧
  match a with
  | .start p e _ => NextHeight e ∧ (lastSaved n.log = none → p.initHeight = h0)
  | .arm x e _ => NextHeight e ∧ (x = .verified → ∀ st q, n.verifiedQ = .richStatus st :: q → st.height ≤ n.st.height)
  | _ => True

end

end Overlord.Spec
