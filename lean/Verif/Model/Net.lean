import Verif.Spec.Node

/-!
# A network of nodes

Models nodes that run `/repo/src/overlord.rs` side by side. What they send to each other, and what faulty nodes send,
arrives as arbitrary messages at the nodes' loops (`NAct.arm (.raw m)`); nothing is assumed about delivery.
`votes` is a history variable: the votes released so far by all nodes, oldest first.
-/

namespace Overlord

/-- Nodes running overlord.rs:55-110 `Overlord::run`, by address, and the votes they have released. -/
structure NetSys (T : Type) where
  nodes : Address → NodeSys T
  votes : List (Address × Vote)

section
variable {T : Type} [ContentCodec T] [DecidableEq T]

/-- Node `a` takes one step (overlord.rs:55-110 `Overlord::run`); `none` if it is not possible. -/
def NetSys.act (N : NetSys T) (a : Address) (x : NAct T) : Option (NetSys T) :=
  match (N.nodes a).act a x with
  | none => none
  | some n =>
    some { nodes := fun b => if b = a then n else N.nodes b
           votes := N.votes ++ (Spec.votesOf (n.log.drop (N.nodes a).log.length)).map fun sv => (a, sv.vote) }

/-- No node has been started yet (overlord.rs:34-44 `Overlord::new`). -/
def NetSys.new : NetSys T := { nodes := NodeSys.new, votes := [] }

/-- The steps of the nodes, one after the other (a schedule of several overlord.rs:55-110 `Overlord::run`). -/
def NetSys.run (N : NetSys T) : List (Address × NAct T) → Option (NetSys T)
  | [] => some N
  | (a, x) :: as =>
    match N.act a x with
    | none => none
    | some N' => N'.run as

end

end Overlord
