import Verif.Model.Clock

/-!
# Specification vocabulary for C67: the pace of blocks
-/

namespace Overlord.Spec
variable {T : Type} [ContentCodec T] [DecidableEq T]

/-- The node starts a height at time `t`: the voting state machine is told its status. -/
def HeightStarts (t : Nat) (st : SMRStatus) (x : Timed T) : Prop :=
  ∃ tr, x = .act t (.trigger tr) ∧ tr.triggerType = .newHeight st

/-- The new block interval that an effect announces, if any. -/
def announced : Effect T → Option Nat
  | .trigger tr =>
    match tr.triggerType with
    | .newHeight st => st.newInterval
    | _ => none
  | _ => none

/-- The block interval in force after the effects `l`: the last one that came with a status, at first `i`. -/
def intervalInForce (i : Nat) : List (Effect T) → Nat
  | [] => i
  | x :: l => intervalInForce ((announced x).getD i) l

/-- The effects of a timed log. -/
def acts (l : List (Timed T)) : List (Effect T) :=
  l.filterMap fun
    | .act _ x => some x
    | .sleep .. => none

/-- The entry is a pause of the node. -/
def isSleep : Timed T → Bool
  | .act .. => false
  | .sleep .. => true

/-- An input, the answers of the environment, how long the node waited for the input, and how much time passes between
the readings of the clock while it is handled. -/
structure Tick (T : Type) where
  env : Env T
  input : Input T
  gap : Nat
  ahead : List Nat

/-- The node when it begins to handle the input. -/
def _root_.Overlord.TWorld.wait (n : TWorld T) (k : Tick T) : TWorld T := { n with now := n.now + k.gap, ahead := k.ahead }

/-- The node after the input. -/
def _root_.Overlord.TWorld.step (n : TWorld T) (k : Tick T) : TWorld T := (tRunArm k.input k.env (n.wait k)).2

/-- All nodes a history of inputs leads to, with any timing; the loop ends when an arm returns `false` or panics. -/
inductive ClockReach (n0 : TWorld T) : TWorld T → Prop
  | refl : ClockReach n0 n0
  | step {n : TWorld T} (k : Tick T) (h : ClockReach n0 n) (hk : (tRunArm k.input k.env (n.wait k)).1 = .ok true) :
      ClockReach n0 (n.step k)

/-- The node leads round 0 of the height it is at. -/
def LeadsHeight (mode : LeaderMode) (s : State T) : Prop :=
  s.authority.getProposer mode s.height INIT_ROUND = .ok s.address

end Overlord.Spec
