import Verif.Spec.Smr

/-!
# Specification vocabulary for the documented self-checks of the voting state machine (C63)

The comment of `check` (state_machine.rs:544-548) lists four conditions; the body of `check` (state_machine.rs:553-577), which is commented out, has three tests.
-/

namespace Overlord.Spec

/-- "1. Whenever the lock is some and the proposal hash is empty, is impossible." -/
def LockedOnABlock (s : Smr) : Prop := ¬ (s.lock ≠ none ∧ s.blockHash = [])

/-- "2. As long as there is a lock, the lock and proposal hash must be consistent." -/
def LockMatches (s : Smr) : Prop := ∀ l, s.lock = some l → l.hash = s.blockHash

/-- "3. Before precommit step, and round is 0, there can be no lock." -/
def NoEarlyLock (s : Smr) : Prop := s.round = 0 → s.step = .propose ∨ s.step = .prevote → s.lock = none

/-- "4. If the step is propose, proposal hash must be empty unless lock is some." -/
def FreshProposal (s : Smr) : Prop := s.step = .propose → s.lock = none → s.blockHash = []

/-- The last of the commented-out tests: "While in precommit step, the lock and the proposal hash must be NOR": the proposal hash is empty exactly if there is no lock. -/
def PrecommitNor (s : Smr) : Prop := s.step = .precommit → (s.blockHash = [] ↔ s.lock = none)

/-- A lock is never from the future: it is of an earlier round, or of this round and then the node has precommitted (stronger than 3). -/
def LockFromPast (s : Smr) : Prop :=
  ∀ l, s.lock = some l → l.round < s.round ∨ (l.round = s.round ∧ Step.precommit.toNat ≤ s.step.toNat)

/-- A record from which a restarted machine can resume: its lock is on a block and not from the future. -/
def SoundBase (w : SMRBase) : Prop :=
  ∀ l, w.polc = some l → l.hash ≠ [] ∧ (l.round < w.round ∨ (l.round = w.round ∧ Step.precommit.toNat ≤ w.step.toNat))

/-- What a machine is given in one life: at most one record, first of all, and after it triggers that are not beyond the last round of `u64`. -/
def OneLife (ts : List SMRTrigger) : Prop :=
  (∀ t ∈ ts.tail, NotWal t ∧ InRange t ∧ ¬ LastRoundQC t) ∧
  ∀ t, ts.head? = some t → (NotWal t ∧ InRange t ∧ ¬ LastRoundQC t) ∨
    ∃ w, t.triggerType = .walInfo ∧ t.walInfo = some w ∧ SoundBase w

end Overlord.Spec
