import Verif.Spec.Smr
import Verif.Model.Timer

/-!
# Specification vocabulary for the timer (C26–C28)
-/

namespace Overlord.Spec

/-- The position (height, round, step) that an event backs with a timer, if any. -/
def backs : SMREvent → Option (Nat × Nat × Step)
  | .newRoundInfo h r .. => some (h, r, .propose)
  | .prevoteVote h r .. => some (h, r, .prevote)
  | .precommitVote h r .. => some (h, r, .precommit)
  | .brake h r .. => some (h, r, .brake)
  | .commit _ => none
  | .stop => none

/-- The kind of trigger by which the timeout of a step shows at the state machine. -/
def timeoutKind : Step → TriggerType
  | .propose => .proposal
  | .prevote => .prevoteQC
  | .precommit => .precommitQC
  | .brake => .brakeTimeout
  | .commit => .stop

/-- `t` is the timeout of height `h`, round `r`, step `st`: from the timer, without hash and lock. -/
def IsTimeout (t : SMRTrigger) (h r : Nat) (st : Step) : Prop :=
  t.source = .timer ∧ t.triggerType = timeoutKind st ∧ t.height = h ∧ t.round = r ∧
  t.hash = [] ∧ t.lockRound = none ∧ t.walInfo = none

/-- A trigger that the State sends (not the start-up one, not `Stop`). -/
def StateInput (t : SMRTrigger) : Prop :=
  t.source = .state ∧ (t.triggerType = .proposal ∨ t.triggerType = .prevoteQC ∨
    t.triggerType = .precommitQC ∨ t.triggerType = .continueRound ∨ ∃ st, t.triggerType = .newHeight st)

/-- A scheduling step in which the State, if it acts, sends one of its triggers. -/
def ActOk : TAct → Prop
  | .input t => StateInput t
  | _ => True

/-- The WAL record, if there is one, is of a step at which a node resumes voting. -/
def WalOk : Option SMRBase → Prop
  | none => True
  | some w => w.step ≠ .commit

/-- States of the composition that a schedule can reach. -/
inductive TReach (interval : Nat) (config : Option DurationConfig) (wal : Option SMRBase) :
    TimerSys → Prop
  | boot : TReach interval config wal (TimerSys.boot interval config wal)
  | step {s s' : TimerSys} (a : TAct) (h : TReach interval config wal s) (ha : ActOk a)
      (hs : s.act a = some s') : TReach interval config wal s'

/-- A timeout for the event is still to be armed, sleeping, or expired and on its way. -/
def Pending (s : TimerSys) (e : SMREvent) : Prop :=
  e ∈ s.evtQ ∨ (∃ d, (e, d) ∈ s.armed) ∨ e ∈ s.notify

/-- The configured share of the interval for a step, in milliseconds. -/
def share (c : TimerConfig) : Step → Nat
  | .propose => c.interval * c.propose.1 / c.propose.2
  | .prevote => c.interval * c.prevote.1 / c.prevote.2
  | .precommit => c.interval * c.precommit.1 / c.precommit.2
  | .brake => c.interval * c.brake.1 / c.brake.2
  | .commit => 0

/-- No product of the interval with a ratio overflows `u64`. -/
def ConfigOk (c : TimerConfig) : Prop :=
  c.interval * c.propose.1 < 2 ^ 64 ∧ c.interval * c.prevote.1 < 2 ^ 64 ∧
  c.interval * c.precommit.1 < 2 ^ 64 ∧ c.interval * c.brake.1 < 2 ^ 64

/-- An infinite schedule; at each moment one task acts, or none (`act n = none`). -/
structure TRun where
  st : Nat → TimerSys
  act : Nat → Option TAct
  ok : ∀ n a, act n = some a → ActOk a
  next : ∀ n a, act n = some a → (st n).act a = some (st (n + 1))
  idle : ∀ n, act n = none → st (n + 1) = st n

/-- Every queue is served and every sleeping timeout expires and is delivered some day. -/
structure Fair (σ : TRun) : Prop where
  smr : ∀ n, (σ.st n).trigQ ≠ [] → ∃ m, n ≤ m ∧ σ.act m = some .smr
  set : ∀ n, (σ.st n).evtQ ≠ [] → ∃ m, n ≤ m ∧ σ.act m = some .set
  expire : ∀ n x, x ∈ (σ.st n).armed →
    ∃ m i, n ≤ m ∧ σ.act m = some (.expire i) ∧ (σ.st m).armed[i]? = some x
  fire : ∀ n e, e ∈ (σ.st n).notify →
    ∃ m i, n ≤ m ∧ σ.act m = some (.fire i) ∧ (σ.st m).notify[i]? = some e

end Overlord.Spec
