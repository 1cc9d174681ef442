import Verif.Spec.Smr

/-!
# Specification vocabulary for the reactions of the voting state machine (C49)

What an input *must* make the machine do, in terms of what can be observed: the position, the lock
and the orders (votes, commits, new rounds, brakes) sent to the State and the timer.
-/

namespace Overlord.Spec

/-- The (height, round) of a new round announced by an event to the State and the timer. -/
def roundOf : Out → Option (Nat × Nat)
  | .both (.newRoundInfo h r _ _ _ _ _) => some (h, r)
  | _ => none

/-- The (height, round) for which an event orders the State to send chokes. -/
def brakeOf : Out → Option (Nat × Nat)
  | .both (.brake h r _) => some (h, r)
  | _ => none

/-- New rounds announced while handling one trigger. -/
def roundsIn (o : SmrOut) : List (Nat × Nat) := o.outs.filterMap roundOf
/-- Brakes ordered while handling one trigger. -/
def brakesIn (o : SmrOut) : List (Nat × Nat) := o.outs.filterMap brakeOf

/-- Everything that the orders of one trigger consist of. -/
structure Orders where
  votes : List OVote := []
  commits : List Hash := []
  rounds : List (Nat × Nat) := []
  brakes : List (Nat × Nat) := []
deriving DecidableEq, Repr

/-- The orders given while handling one trigger. -/
def ordersOf (o : SmrOut) : Orders := ⟨votesIn o, commitsIn o, roundsIn o, brakesIn o⟩

/-- An input that a machine at height `h`, round `r`, step `st` with lock `l` has to act on. -/
inductive Live (h r : Nat) (st : Step) (l : Option Lock) (t : SMRTrigger) : Prop
  /-- a proposal of the current round, while waiting for it; it may not contradict the lock: not
  claim a lock of the same round on another block -/
  | proposal (ht : t.triggerType = .proposal) (hs : t.source = .state) (hh : t.height = h)
      (hr : t.round = r) (hst : st = .propose) (hne : t.hash ≠ [])
      (hok : ∀ k, l = some k → t.lockRound = some k.round → t.hash = k.hash)
  /-- the propose timeout of the current round, while waiting for a proposal -/
  | proposeTimeout (ht : t.triggerType = .proposal) (hs : t.source = .timer) (hh : t.height = h)
      (hr : t.round = r) (hst : st = .propose)
  /-- a prevote quorum of the current round, before the precommit step -/
  | prevoteQuorum (ht : t.triggerType = .prevoteQC) (hs : t.source = .state) (hh : t.height = h)
      (hr : t.round = r) (hst : st = .propose ∨ st = .prevote)
  /-- a prevote quorum of a later round, in any step -/
  | laterPrevoteQuorum (ht : t.triggerType = .prevoteQC) (hs : t.source = .state)
      (hh : t.height = h) (hr : r < t.round)
  /-- the prevote timeout of the current round, before the precommit step -/
  | prevoteTimeout (ht : t.triggerType = .prevoteQC) (hs : t.source = .timer) (hh : t.height = h)
      (hr : t.round = r) (hst : st = .propose ∨ st = .prevote)
  /-- a precommit quorum for a block of this height, of any round -/
  | precommitQuorum (ht : t.triggerType = .precommitQC) (hs : t.source = .state)
      (hh : t.height = h) (hst : st ≠ .commit) (hne : t.hash ≠ [])
  /-- an empty precommit quorum of the current or a later round -/
  | emptyPrecommitQuorum (ht : t.triggerType = .precommitQC) (hs : t.source = .state)
      (hh : t.height = h) (hr : r ≤ t.round) (hst : st ≠ .commit) (hn : t.hash = [])
  /-- the precommit timeout of the current round -/
  | precommitTimeout (ht : t.triggerType = .precommitQC) (hs : t.source = .timer)
      (hh : t.height = h) (hr : t.round = r) (hst : st ≠ .commit)
  /-- the brake timeout of the current round -/
  | brakeTimeout (ht : t.triggerType = .brakeTimeout) (hs : t.source = .timer)
      (hh : t.height = h) (hr : t.round = r)
  /-- a choke quorum that orders a later round -/
  | choke (ht : t.triggerType = .continueRound) (hs : t.source = .state) (hh : t.height = h)
      (hr : r < t.round)
  /-- a status for a higher height -/
  | status (s : SMRStatus) (ht : t.triggerType = .newHeight s) (hs : t.source = .state)
      (hh : h < s.height)

end Overlord.Spec
