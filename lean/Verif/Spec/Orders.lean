import Verif.Spec.Net

/-!
# Specification vocabulary for orders (C53)

The voting state machine orders the State to enter rounds, to vote, to commit and to ask for a new round. These are the
conditions under which the orders are carried out.
-/

namespace Overlord.Spec

variable {T : Type}

/-- Saving and signing work. -/
structure Works (e : Env T) : Prop where
  saves : ∀ b, e.walSave b = true
  signs : ∀ h, (e.crypto.sign h).isSome = true

/-- The leader election is the one of the network (rotation or by weight). -/
def ModeIs (mode : LeaderMode) : NAct T → Prop
  | .arm _ e _ => e.mode = mode
  | .start _ e _ => e.mode = mode
  | _ => True

/-- Every round of every height has a leader. -/
def LeadersExist (lists : Nat → List Node) (mode : LeaderMode) (leader : Nat → Nat → Address) : Prop :=
  ∀ k r, (Authority.update (lists k)).getProposer mode k r = .ok (leader k r)

section
variable [ContentCodec T] [DecidableEq T]

/-- The rounds of the choke certificates that the node holds after the step are `u64` values. (In the code they are by their type.) -/
def ChokeRounds (addr : Address) (n : NodeSys T) (x : NAct T) : Prop :=
  ∀ n', n.act addr x = some n' → ∀ r, (n'.st.chokes.getQc r).isSome = true → r < 2 ^ 64

/-- What is asked of a step of a correct node, besides `NetStep`. -/
structure OrderStep (f : Hash → Nat × T) (mode : LeaderMode) (N : NetSys T) (a : Address) (x : NAct T) : Prop where
  fixes : HashFixes f (N.nodes a) x
  loads : LoadsSaved (N.nodes a) x
  mode : ModeIs mode x
  chokes : ChokeRounds a (N.nodes a) x

/-- A schedule in which the steps of correct nodes meet `NetStep` and `OrderStep`. -/
def OrderSchedule (f : Hash → Nat × T) (lists : Nat → List Node) (correct : Address → Bool) (mode : LeaderMode)
    (as : List (Address × NAct T)) : Prop :=
  AlongNet (fun N a x => correct a = true → NetStep lists correct N a x ∧ OrderStep f mode N a x) NetSys.new as

end

end Overlord.Spec
