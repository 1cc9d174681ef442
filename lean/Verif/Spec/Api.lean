import Verif.Model.Api

/-!
# Specification vocabulary for the public object (C57)

Only observations of a history: calls and what they returned.
-/

namespace Overlord.Spec

variable {T : Type}

/-- The messages for which `send_msg` returned `Ok`, in the order of the calls. -/
def accepted (h : List (Call T × Ret T)) : List (OverlordMsg T) :=
  h.filterMap fun
    | (.send m, .ok) => some m
    | _ => none

/-- The messages the running node took up, in this order. -/
def received (h : List (Call T × Ret T)) : List (OverlordMsg T) :=
  h.filterMap fun
    | (_, .took m) => some m
    | _ => none

/-- How many calls of `run` went through. -/
def starts (h : List (Call T × Ret T)) : Nat :=
  (h.filter fun x => match x with
    | (_, .started) => true
    | _ => false).length

/-- The steps of the node in a history. -/
def nodeSteps (h : List (Call T × Ret T)) : List (NAct T) :=
  h.filterMap fun
    | (.run p e cut, .started) => some (.start p e cut)
    | (.take e cut, .took m) => some (.arm (.raw m) e cut)
    | (.inner x, .done) => some x
    | (.abort, .done) => some .crash
    | _ => none

/-- `run` was called and has ended: it returned, panicked, was dropped, or the process ended. -/
def RunEnded (h : List (Call T × Ret T)) (a : Api T) : Prop := starts h = 1 ∧ a.node.down = true

/-- An infinite history of an object. -/
structure ApiRun (T : Type) [ContentCodec T] [DecidableEq T] (addr : Address) where
  st : Nat → Api T
  call : Nat → Call T
  ret : Nat → Ret T
  next : ∀ i, (st i).act addr (call i) = some (st (i + 1), ret i)

/-- What happened before time `i`. -/
def ApiRun.upto [ContentCodec T] [DecidableEq T] {addr : Address} (R : ApiRun T addr) (i : Nat) : List (Call T × Ret T) :=
  (List.range i).map fun j => (R.call j, R.ret j)

end Overlord.Spec
