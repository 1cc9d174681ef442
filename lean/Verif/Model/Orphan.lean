import Verif.Model.Node

/-!
# What `run` leaves behind

`Overlord::run` (overlord.rs:55-110) spawns the voting state machine and the timer as tasks of their own and runs the State itself. When `run` ends because its future is dropped or
panics, the State is gone with its ends of the channels, the spawned tasks are not. Modelled here: these tasks from then on.

Simplifications: the state that a failed handler of the voting state machine leaves is not modelled (any); the end of a task and the closing of its channels are one step.
-/

namespace Overlord

/-- The tasks spawned by overlord.rs:55-110 `Overlord::run` and by the State, after the State is gone. -/
structure Orphans (T : Type) where
  sys : TimerSys
  /-- the task of the voting state machine has not ended -/
  smrUp : Bool
  /-- the task of the timer has not ended -/
  timerUp : Bool
  /-- running signature verifications (parallel.rs:13-95 `parallel_verify`) -/
  verifying : List (OverlordMsg T × Authority)
  /-- running block checks (process.rs:1860-1882 `check_current_block`) -/
  checking : List (Nat × Nat × Hash × T)

/-- A step of one of these tasks. -/
inductive OAct where
  /-- the voting state machine handles its next trigger; it is then in state `next` -/
  | smr (next : Smr)
  /-- the timer handles its next event -/
  | set
  /-- the `i`-th sleeping timeout expires -/
  | expire (i : Nat)
  /-- the timer receives the `i`-th expired timeout -/
  | fire (i : Nat)
  /-- the `i`-th verification ends -/
  | verifyDone (i : Nat)
  /-- the `i`-th block check ends -/
  | checkDone (i : Nat)

/-- state_machine.rs:438-455 `throw_event`, `throw_timer_event`: an event for the State fails, and the handler returns with an error; what was sent to the timer before
that is sent. -/
def SmrOut.toTimer (o : SmrOut) : List SMREvent :=
  (o.outs.takeWhile fun x => match x with
    | .timerOnly _ => true
    | .both _ => false).map Out.event

section
variable {T : Type}

/-- The future of overlord.rs:55-110 `Overlord::run` is dropped, or panics. -/
def Orphans.of (n : NodeSys T) : Orphans T :=
  { sys := n.sys, smrUp := true, timerUp := true, verifying := n.verifying, checking := n.checking }

/-- One step; `none` if it is not possible. smr/mod.rs:47-58 `run` and state_machine.rs:31-82 `poll_next` (with the last sender gone the loop spins on an error),
timer.rs:33-79 `poll_next` (the same), timer.rs:103-109 `run`. -/
def Orphans.act (o : Orphans T) : OAct → Option (Orphans T)
  | .smr next =>
    if o.smrUp = false then none
    else
      match o.sys.trigQ with
      | [] => if o.timerUp then none else some o
      | t :: q =>
        let r := o.sys.smr.onTrigger t
        match r.res with
        | .ok | .err _ => some { o with sys := { o.sys with smr := next, trigQ := q, evtQ := o.sys.evtQ ++ r.toTimer } }
        | .ended | .panic => some { o with smrUp := false, sys := { o.sys with trigQ := [], evtQ := o.sys.evtQ ++ r.toTimer } }
  | .set =>
    if o.timerUp = false then none
    else
      match o.sys.evtQ with
      | [] => if o.smrUp then none else some o
      | .stop :: _ => some { o with timerUp := false, sys := { o.sys with evtQ := [], notify := [] } }
      | e :: q =>
        let r := o.sys.timer.setTimer e
        some { o with sys := { o.sys with timer := r.1, evtQ := q, armed := o.sys.armed ++ r.2.toList } }
  | .expire i =>
    match o.sys.armed[i]? with
    | none => none
    | some e => some { o with sys := { o.sys with armed := o.sys.armed.eraseIdx i, notify := if o.timerUp then o.sys.notify ++ [e.1] else [] } }
  | .fire i =>
    if o.timerUp = false then none
    else
      match o.sys.notify[i]? with
      | none => none
      | some e => some { o with sys := { o.sys with
          notify := o.sys.notify.eraseIdx i
          trigQ := if o.smrUp then o.sys.trigQ ++ (o.sys.timer.trigger e).toList else [] } }
  | .verifyDone i => if i < o.verifying.length then some { o with verifying := o.verifying.eraseIdx i } else none
  | .checkDone i => if i < o.checking.length then some { o with checking := o.checking.eraseIdx i } else none

/-- Steps one after the other. -/
def Orphans.run (o : Orphans T) : List OAct → Option (Orphans T)
  | [] => some o
  | x :: xs =>
    match o.act x with
    | none => none
    | some o' => o'.run xs

end

end Overlord
