import Verif.Model.Types

/-!
# The voting state machine

Models `/repo/src/smr/state_machine.rs` completely and the run loop of `smr/mod.rs`.

`Smr.onTrigger` is one iteration of `Stream::poll_next` on a received trigger.

Simplifications: log lines are dropped; sending an event on an unbounded channel always succeeds
(state_machine.rs:438-447 `throw_event` fails only if the State or the Timer task is gone);
state_machine.rs:550-578 `check` has only commented-out code and returns `Ok(())`.
-/

namespace Overlord

/-- state_machine.rs:20-29 `StateMachine`, without the channels. -/
structure Smr where
  height : Nat
  round : Nat
  step : Step
  blockHash : Hash
  lock : Option Lock
deriving DecidableEq, Repr

/-- state_machine.rs:87-102 `new`, with the default step `Commit` (smr_types.rs:60-64 `impl Default for Step`). -/
def Smr.init : Smr :=
  { height := INIT_HEIGHT, round := INIT_ROUND, step := .commit, blockHash := [], lock := none }

/-- Where an event goes: state_machine.rs:438-447 `throw_event` sends to the State and the Timer,
state_machine.rs:449-454 `throw_timer_event` only to the Timer. -/
inductive Out where
  | both (e : SMREvent)
  | timerOnly (e : SMREvent)
deriving DecidableEq, Repr

/-- What `poll_next` returns: `Some(Ok)`, `Some(Err)`, `None` (Stop), or a panic. -/
inductive SmrRes where
  | ok
  | err (e : Err)
  | ended
  | panic
deriving DecidableEq, Repr

/-- Result of one iteration: the new state, the events thrown in order, the result. -/
structure SmrOut where
  next : Smr
  outs : List Out
  res : SmrRes
deriving DecidableEq, Repr

/-- `Ok(())` without any effect. -/
def Smr.idle (s : Smr) : SmrOut := ⟨s, [], .ok⟩

/-- `self.lock.clone().map(|lock| lock.round)` (state_machine.rs:116, 257, 351). -/
def Smr.lockRound (s : Smr) : Option Nat := s.lock.map Lock.round
/-- `Some(lock.hash)` half of state_machine.rs:129-132, 332-335, 391-394, 474-478. -/
def Smr.lockProposal (s : Smr) : Option Hash := s.lock.map Lock.hash

/-- state_machine.rs:104-119 `handle_brake_timeout`. -/
def Smr.handleBrakeTimeout (s : Smr) (height round : Nat) : SmrOut :=
  if height ≠ s.height ∨ round ≠ s.round then s.idle
  else ⟨s, [.both (.brake height round s.lockRound)], .ok⟩

/-- state_machine.rs:467-471 `goto_next_round`. -/
def Smr.gotoNextRound (s : Smr) : Smr := { s with round := inc64 s.round, step := .propose }

/-- state_machine.rs:121-144 `handle_continue_round`. -/
def Smr.handleContinueRound (s : Smr) (height round : Nat) : SmrOut :=
  if height ≠ s.height ∨ round ≤ s.round then s.idle
  else
    let s1 := { s with round := round - 1 }
    ⟨s1.gotoNextRound,
      [.both (.newRoundInfo s1.height (inc64 s1.round) s1.lockRound s1.lockProposal
        (.chokeQC (round - 1)) none none)],
      .ok⟩

/-- state_machine.rs:473-510 `set_timer_after_wal`: the timer event, `none` is `unreachable!()`. -/
def Smr.timerEventAfterWal (s : Smr) : Option SMREvent :=
  match s.step with
  | .propose => some (.newRoundInfo s.height s.round s.lockRound s.lockProposal
      (.precommitQC U64MAX) none none)
  | .prevote => some (.prevoteVote s.height s.round [] s.lockRound)
  | .precommit => some (.precommitVote s.height s.round [] s.lockRound)
  | .brake => some (.brake s.height s.round s.lockRound)
  | .commit => none

/-- state_machine.rs:146-155 `handle_wal`. -/
def Smr.handleWal (s : Smr) (info : SMRBase) : SmrOut :=
  let s1 : Smr :=
    { height := info.height, round := info.round, step := info.step,
      blockHash := match info.polc with
        | some l => l.hash
        | none => s.blockHash,
      lock := info.polc }
  match s1.timerEventAfterWal with
  | some e => ⟨s1, [.timerOnly e], .ok⟩
  | none => ⟨s1, [], .panic⟩

/-- state_machine.rs:457-464 `goto_new_height`. -/
def Smr.gotoNewHeight (_s : Smr) (height : Nat) : Smr :=
  { height := height, round := INIT_ROUND, step := .propose, blockHash := [], lock := none }

/-- state_machine.rs:159-186 `handle_new_height`. -/
def Smr.handleNewHeight (s : Smr) (st : SMRStatus) (source : TriggerSource) : SmrOut :=
  if source ≠ .state then ⟨s, [], .err .other⟩
  else if st.height ≤ s.height then ⟨s, [], .err .other⟩
  else
    let s1 := s.gotoNewHeight st.height
    ⟨s1, [.both (.newRoundInfo s1.height INIT_ROUND none none (.precommitQC U64MAX)
      st.newInterval st.newConfig)], .ok⟩

/-- state_machine.rs:238-254, the middle part of `handle_proposal`: update of the PoLC; `none` is the
"Fork" error. -/
def Smr.acceptProposal (s : Smr) (hash : Hash) (lockRound : Option Nat) : Option Smr :=
  match lockRound with
  | some lr =>
    match s.lock with
    | some l =>
      if lr > l.round then some { s with lock := none, blockHash := hash }
      else if lr = l.round ∧ hash ≠ s.blockHash then none
      else some s
    | none => some { s with blockHash := hash }
  | none =>
    match s.lock with
    | none => some { s with blockHash := hash }
    | some _ => some s

/-- state_machine.rs:192-267 `handle_proposal`. -/
def Smr.handleProposal (s : Smr) (hash : Hash) (round : Nat) (lockRound : Option Nat)
    (source : TriggerSource) (height : Nat) : SmrOut :=
  if s.height ≠ height ∨ s.round ≠ round then s.idle
  else if s.step.toNat > Step.propose.toNat then s.idle
  else if source = .timer then
    let (lr, h) : Option Nat × Hash := match s.lock with
      | some l => (some l.round, l.hash)
      | none => (none, [])
    ⟨{ s with step := .prevote }, [.both (.prevoteVote s.height s.round h lr)], .ok⟩
  else if hash = [] then ⟨s, [], .err .proposalErr⟩
  else
    match s.acceptProposal hash lockRound with
    | none => ⟨s, [], .err .correctnessErr⟩
    | some s1 =>
      ⟨{ s1 with step := .prevote },
        [.both (.prevoteVote s1.height s1.round s1.blockHash s1.lockRound)], .ok⟩

/-- state_machine.rs:522-531 `update_polc`. -/
def Smr.updatePolc (s : Smr) (hash : Hash) (round : Nat) : Smr :=
  if hash = [] then { s with blockHash := hash, lock := none }
  else { s with blockHash := hash, lock := some { round := round, hash := hash } }

/-- state_machine.rs:273-360 `handle_prevote`. -/
def Smr.handlePrevote (s : Smr) (hash : Hash) (round : Nat) (source : TriggerSource)
    (height : Nat) : SmrOut :=
  if s.height ≠ height then s.idle
  else if round = s.round ∧ s.step.toNat > Step.prevote.toNat then s.idle
  else if source = .timer then
    if round ≠ s.round then s.idle
    else
      let s1 : Smr := match s.lock with
        | some _ => s
        | none => { s with blockHash := [] }
      ⟨{ s1 with step := .precommit },
        [.both (.precommitVote s1.height s1.round [] s1.lockRound)], .ok⟩
  else if round < s.round then s.idle
  else
    let s1 := s.updatePolc hash round
    let (s2, o2) : Smr × List Out :=
      if round > s.round then
        let s2 := { s1 with round := round }
        (s2.gotoNextRound,
          [.both (.newRoundInfo s2.height (inc64 s2.round) s1.lockRound s1.lockProposal
            (.prevoteQC round) none none)])
      else (s1, [])
    ⟨{ s2 with step := .precommit },
      o2 ++ [.both (.precommitVote s2.height s2.round s2.blockHash s2.lockRound)], .ok⟩

/-- state_machine.rs:366-436 `handle_precommit`. -/
def Smr.handlePrecommit (s : Smr) (hash : Hash) (round : Nat) (source : TriggerSource)
    (height : Nat) : SmrOut :=
  if s.height ≠ height then s.idle
  else if s.step = .commit then s.idle
  else if source = .timer then
    if round ≠ s.round then s.idle
    else ⟨{ s with step := .brake }, [.both (.brake s.height s.round s.lockRound)], .ok⟩
  else if hash = [] then
    if round < s.round then s.idle
    else
      let s1 := { s with round := round }
      ⟨s1.gotoNextRound,
        [.both (.newRoundInfo s1.height (inc64 s1.round) s.lockRound s.lockProposal
          (.precommitQC round) none none)], .ok⟩
  else ⟨{ s with step := .commit }, [.both (.commit hash)], .ok⟩

/-- state_machine.rs:34-82 `poll_next` on a received trigger. -/
def Smr.onTrigger (s : Smr) (t : SMRTrigger) : SmrOut :=
  match t.triggerType with
  | .newHeight st => s.handleNewHeight st t.source
  | .proposal => s.handleProposal t.hash t.round t.lockRound t.source t.height
  | .prevoteQC => s.handlePrevote t.hash t.round t.source t.height
  | .precommitQC => s.handlePrecommit t.hash t.round t.source t.height
  | .brakeTimeout =>
    if t.source = .timer then s.handleBrakeTimeout t.height t.round else ⟨s, [], .panic⟩
  | .continueRound =>
    if t.source = .state then s.handleContinueRound t.height t.round else ⟨s, [], .panic⟩
  | .walInfo =>
    match t.walInfo with
    | some w => s.handleWal w
    | none => ⟨s, [], .panic⟩
  | .stop => ⟨s, [.both .stop], .ended⟩

/-- One handled trigger: the state before, the trigger, and what the iteration did. -/
structure SmrRec where
  before : Smr
  trig : SMRTrigger
  out : SmrOut
deriving DecidableEq, Repr

/-- smr/mod.rs:47-58 `run`: the SMR task handles triggers in FIFO order until the stream ends (Stop) or
the task panics; errors are logged and the loop goes on. Returns the final state and one record per
handled trigger. -/
def Smr.run (s : Smr) : List SMRTrigger → Smr × List SmrRec
  | [] => (s, [])
  | t :: ts =>
    let o := s.onTrigger t
    match o.res with
    | .ok | .err _ =>
      let r := o.next.run ts
      (r.1, ⟨s, t, o⟩ :: r.2)
    | .ended | .panic => (o.next, [⟨s, t, o⟩])

end Overlord
