import Verif.Spec.State

/-!
# Specification vocabulary for the leaving of a round by chokes (C78)
-/

namespace Overlord.Spec
variable {T : Type}

/-- Verified chokes are handed to the node one after the other, each in its own environment. -/
def handChokes (cs : List (Env T × SignedChoke)) : List (Env T × Input T) :=
  cs.map fun p => (p.1, .verified (.signedChoke p.2))

/-- Who sent a choke for this height and round. -/
def chokers (cs : List SignedChoke) (height round : Nat) : List Address :=
  (cs.filter fun sc => decide (sc.choke.height = height ∧ sc.choke.round = round)).map SignedChoke.address

/-- More than two thirds of `n` by number, each sender counted once. -/
def ManyOf (n : Nat) (as : List Address) : Prop := 2 * n < 3 * as.dedup.length

/-- The order to the voting logic to leave a round of a height for the next one. -/
def leaveOrder (height round : Nat) : SMRTrigger :=
  { triggerType := .continueRound, source := .state, hash := [], lockRound := none, round := (round + 1) % 2 ^ 64,
    height := height, walInfo := none }

/-- The orders to leave a round among the effects. -/
def leaveOrders (log : List (Effect T)) : List SMRTrigger :=
  (triggers log).filter fun t => decide (t.triggerType = .continueRound)

/-- No choke of this height and of this round or a later one is kept. -/
def NoChokes (s : State T) : Prop := ∀ R, s.round ≤ R → heldChokes s R = []

/-! ## In any company -/

variable [ContentCodec T] [DecidableEq T]

/-- While it handles `i` the node stays at its height and round with its validator list, does not stop, gets no choke of
a later round of its height, and if it is to choke it does. -/
structure StaysPut (e : Env T) (i : Input T) (s : State T) : Prop where
  goesOn : (runArm i e ⟨s, []⟩).1 = .ok true
  noRestart : i ≠ .start
  height : (next e i s).height = s.height
  round : (next e i s).round = s.round
  authority : (next e i s).authority = s.authority
  power : (next e i s).consensusPower = s.consensusPower
  noLater : ∀ sc, i = .verified (.signedChoke sc) → ¬ (sc.choke.height = s.height ∧ s.round < sc.choke.round)
  sent : ∀ lr, i = .event (.brake s.height s.round lr) → ∃ sc, .broadcast (.signedChoke sc) ∈ effects e i s

/-- The same, input after input. -/
def StaysPutAlong (s : State T) : List (Env T × Input T) → Prop
  | [] => True
  | (e, i) :: ins => StaysPut e i s ∧ StaysPutAlong (next e i s) ins

/-- Who chokes for the node's height and round by this input: the sender of the choke, or the node itself. -/
def chokesNow (s : State T) : Input T → List Address
  | .verified (.signedChoke sc) => if sc.choke.height = s.height ∧ sc.choke.round = s.round then [sc.address] else []
  | .event (.brake h r _) => if h = s.height ∧ r = s.round then [s.address] else []
  | _ => []

/-- Who chokes by these inputs. -/
def chokesSeen (s : State T) : List (Env T × Input T) → List Address
  | [] => []
  | (e, i) :: ins => chokesNow s i ++ chokesSeen (next e i s) ins

end Overlord.Spec
