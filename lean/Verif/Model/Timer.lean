import Verif.Model.Smr

/-!
# The timer

Models `/repo/src/timer.rs` and `/repo/src/utils/timer_config.rs`, and the composition of the voting
state machine with the timer (`overlord.rs` `run`: the two tasks and their channels).

Simplifications: durations are milliseconds as `Nat` (`Duration::from_millis`, at most `2^64 - 1` ms
times 32, which a `Duration` holds without overflow); a sleeping timeout may expire at any moment
(no real-time order between timeouts); `tokio::spawn`ed senders deliver expired timeouts in any order.
-/

namespace Overlord

/-- timer.rs:17 `MAX_TIMEOUT_COEF` -/
def MAX_TIMEOUT_COEF : Nat := 5

/-- timer_config.rs:10-16 `TimerConfig` -/
structure TimerConfig where
  interval : Nat
  propose : Nat × Nat
  prevote : Nat × Nat
  precommit : Nat × Nat
  brake : Nat × Nat
deriving DecidableEq, Repr

/-- timer_config.rs:19-27 `TimerConfig::new` -/
def TimerConfig.new (interval : Nat) : TimerConfig :=
  { interval := interval, propose := (24, 10), prevote := (10, 10), precommit := (5, 10),
    brake := (3, 10) }

/-- timer_config.rs:29-31 `TimerConfig::set_interval` -/
def TimerConfig.setInterval (c : TimerConfig) (interval : Nat) : TimerConfig :=
  { c with interval := interval }

/-- timer_config.rs:33-38 `TimerConfig::update`, with the getters
lib.rs:192-194 `DurationConfig::get_propose_config` and its three siblings (the denominator is always 10). -/
def TimerConfig.update (c : TimerConfig) (d : DurationConfig) : TimerConfig :=
  { c with propose := (d.proposeRatio, 10), prevote := (d.prevoteRatio, 10),
           precommit := (d.precommitRatio, 10), brake := (d.brakeRatio, 10) }

/-- timer_config.rs:50-52 `TimerConfig::get_propose_timeout` and its three siblings: `u64` product
(release profile: wraps), then division. -/
def TimerConfig.ratio (c : TimerConfig) (p : Nat × Nat) : Nat := (c.interval * p.1 % U64) / p.2

/-- timer_config.rs:40-48 `TimerConfig::get_timeout`; `none` is the `TimerErr`. -/
def TimerConfig.getTimeout (c : TimerConfig) : SMREvent → Option Nat
  | .newRoundInfo .. => some (c.ratio c.propose)
  | .prevoteVote .. => some (c.ratio c.prevote)
  | .precommitVote .. => some (c.ratio c.precommit)
  | .brake .. => some (c.ratio c.brake)
  | .commit _ => none
  | .stop => none

/-- timer.rs:22-30 `Timer`, without the channels. -/
structure Timer where
  config : TimerConfig
  height : Nat
  round : Nat
deriving DecidableEq, Repr

/-- timer.rs:84-105 `Timer::new` -/
def Timer.new (interval : Nat) (config : Option DurationConfig) : Timer :=
  { config := match config with
      | some d => (TimerConfig.new interval).update d
      | none => TimerConfig.new interval,
    height := INIT_HEIGHT, round := INIT_ROUND }

/-- timer.rs:117-137, the first half of `set_timer`: what a `NewRoundInfo` event changes. -/
def Timer.onNewRound (t : Timer) (height round : Nat) (ni : Option Nat)
    (nc : Option DurationConfig) : Timer :=
  let c1 := match ni with
    | some i => t.config.setInterval i
    | none => t.config
  let c2 := match nc with
    | some d => c1.update d
    | none => c1
  { config := c2, height := if height > t.height then height else t.height, round := round }

/-- timer.rs:143-148 the factor of `set_timer`: `2u32.pow(min(round as u32, 5))`. -/
def Timer.coef (t : Timer) : Nat :=
  let c := t.round % U32
  2 ^ (if c > MAX_TIMEOUT_COEF then MAX_TIMEOUT_COEF else c)

/-- timer.rs:115-158 `Timer::set_timer`: the new timer state and the timeout that is armed, if any
(`Commit` arms none; `Stop` is handled in `poll_next` and never gets here). -/
def Timer.setTimer (t : Timer) (e : SMREvent) : Timer × Option (SMREvent × Nat) :=
  match e with
  | .newRoundInfo h r _ _ _ ni nc =>
    let t1 := t.onNewRound h r ni nc
    (t1, (t1.config.getTimeout e).map fun d => (e, d * t1.coef))
  | .brake .. => (t, (t.config.getTimeout e).map fun d => (e, d))
  | .commit _ => (t, none)
  | _ => (t, (t.config.getTimeout e).map fun d => (e, d * t.coef))

/-- The trigger that a timeout sends (timer.rs:203-211). -/
def timeoutTrigger (ty : TriggerType) (height round : Nat) : SMRTrigger :=
  { triggerType := ty, source := .timer, hash := [], lockRound := none, round := round,
    height := height, walInfo := none }

/-- timer.rs:161-209 `Timer::trigger`: the trigger sent to the state machine for an expired timeout; `none`
if the timeout is dropped (or is an error: no such timeout is ever armed). -/
def Timer.trigger (t : Timer) : SMREvent → Option SMRTrigger
  | .newRoundInfo h r .. =>
    if h < t.height ∨ r < t.round then none else some (timeoutTrigger .proposal h r)
  | .prevoteVote h r .. => if h < t.height then none else some (timeoutTrigger .prevoteQC h r)
  | .precommitVote h r .. => if h < t.height then none else some (timeoutTrigger .precommitQC h r)
  | .brake h r .. => if h < t.height then none else some (timeoutTrigger .brakeTimeout h r)
  | _ => none

/-- The event of an `Out` that goes to the timer: all of them
(state_machine.rs:438-447 `throw_event`, `throw_timer_event`). -/
def Out.event : Out → SMREvent
  | .both e => e
  | .timerOnly e => e

/-- The voting state machine and the timer with their channels (overlord.rs:55-110 `Overlord::run`). -/
structure TimerSys where
  smr : Smr
  timer : Timer
  /-- events sent by the state machine, not yet seen by the timer (FIFO) -/
  evtQ : List SMREvent
  /-- sleeping timeouts -/
  armed : List (SMREvent × Nat)
  /-- expired timeouts on their way to the timer -/
  notify : List SMREvent
  /-- triggers sent to the state machine, not yet handled (FIFO) -/
  trigQ : List SMRTrigger
deriving DecidableEq, Repr

/-- One scheduling step of the composition. -/
inductive TAct where
  /-- the State sends a trigger -/
  | input (t : SMRTrigger)
  /-- the state machine handles its next trigger -/
  | smr
  /-- the timer handles its next event -/
  | set
  /-- the `i`-th sleeping timeout expires -/
  | expire (i : Nat)
  /-- the timer receives the `i`-th expired timeout -/
  | fire (i : Nat)
deriving DecidableEq, Repr

/-- One scheduling step; `none` if the step is not possible. After a `Stop` event or a panic of the
state machine nothing is modelled (the step is not possible). -/
def TimerSys.act (s : TimerSys) : TAct → Option TimerSys
  | .input t => some { s with trigQ := s.trigQ ++ [t] }
  | .smr =>
    match s.trigQ with
    | [] => none
    | t :: q =>
      let o := s.smr.onTrigger t
      match o.res with
      | .ok | .err _ =>
        some { s with smr := o.next, trigQ := q, evtQ := s.evtQ ++ o.outs.map Out.event }
      | .ended | .panic => none
  | .set =>
    match s.evtQ with
    | [] => none
    | .stop :: _ => none
    | e :: q =>
      let r := s.timer.setTimer e
      some { s with timer := r.1, evtQ := q, armed := s.armed ++ r.2.toList }
  | .expire i =>
    match s.armed[i]? with
    | none => none
    | some e => some { s with armed := s.armed.eraseIdx i, notify := s.notify ++ [e.1] }
  | .fire i =>
    match s.notify[i]? with
    | none => none
    | some e =>
      some { s with notify := s.notify.eraseIdx i, trigQ := s.trigQ ++ (s.timer.trigger e).toList }

/-- Start of a node (overlord.rs:55-110 `Overlord::run`). With a WAL record the first trigger in the
channel is the one of process.rs:1686-1740 `State::start_with_wal`, and the state machine handles it first;
the model starts just after that. -/
def TimerSys.boot (interval : Nat) (config : Option DurationConfig) (wal : Option SMRBase) :
    TimerSys :=
  let s0 : TimerSys :=
    { smr := Smr.init, timer := Timer.new interval config, evtQ := [], armed := [], notify := [],
      trigQ := [] }
  match wal with
  | none => s0
  | some w =>
    let o := Smr.init.handleWal w
    { s0 with smr := o.next, evtQ := o.outs.map Out.event }

end Overlord
