import Verif.Model.State
import Verif.Model.Timer

/-!
# A node: State, voting state machine and timer with their channels, crashes and restarts

Models the composition made by `/repo/src/overlord.rs` (`run`): the State's select loop, the voting state machine, the timer,
the tasks the State spawns and the channels between them. One `NAct` is one scheduling step; the order of
steps is arbitrary.

Simplifications:
* messages of the outside arrive at the State's loop in any order (the handlers' channel is in `Model/Api.lean`, C57 relates the two);
* when the node starts, the voting state machine handles the triggers of
  process.rs:1686-1740 `State::start_with_wal` before anything else (they are the first triggers in its channel, nothing
  it does for them depends on the other tasks);
* a panic of the State's task, or the end of its loop, halts the node until the next start;
* a crash may happen anywhere inside the handling of an input: only the first effects have then taken place.
-/

namespace Overlord

/-- overlord.rs:55-110 `Overlord::run`: the tasks and channels of one node, and what it has done in its whole life. -/
structure NodeSys (T : Type) where
  st : State T
  /-- the voting state machine and the timer, with their channels -/
  sys : TimerSys
  /-- events of the voting state machine not yet seen by the State (FIFO) -/
  stQ : List SMREvent
  /-- messages not yet handled: verified, or passed on without verification (FIFO) -/
  verifiedQ : List (OverlordMsg T)
  /-- running signature verifications -/
  verifying : List (OverlordMsg T × Authority)
  /-- running block checks: height, round, hash, block -/
  checking : List (Nat × Nat × Hash × T)
  /-- results of block checks not yet handled (FIFO) -/
  respQ : List VerifyResp
  /-- all effects so far, of this start and of earlier ones -/
  log : List (Effect T)
  /-- crashed, panicked, stopped or not yet started -/
  down : Bool
deriving DecidableEq, Repr

/-- What the State's loop can take up next (process.rs:118-190 `State::run`). -/
inductive Arm (T : Type) where
  | raw (m : OverlordMsg T)
  | event
  | resp
  | verified
deriving DecidableEq, Repr

/-- The parameters of a start (overlord.rs:55-110 `Overlord::run`). -/
structure StartParams where
  initHeight : Nat
  interval : Nat
  list : List Node
  timerConfig : Option DurationConfig
deriving DecidableEq, Repr

/-- One scheduling step. -/
inductive NAct (T : Type) where
  /-- the State takes up an input; `cut = some k`: the node crashes after the first `k` effects -/
  | arm (a : Arm T) (e : Env T) (cut : Option Nat)
  /-- the `i`-th running verification ends -/
  | verifyDone (c : Crypto) (i : Nat)
  /-- the `i`-th running block check ends -/
  | checkDone (i : Nat) (ok : Bool)
  /-- the voting state machine handles its next trigger -/
  | smr
  /-- the timer handles its next event -/
  | set
  /-- the `i`-th sleeping timeout expires -/
  | expire (i : Nat)
  /-- the timer receives the `i`-th expired timeout -/
  | fire (i : Nat)
  /-- the node crashes -/
  | crash
  /-- the node is started (again); `cut` as above -/
  | start (p : StartParams) (e : Env T) (cut : Option Nat)

section
variable {T : Type}

/-- The event of an `Out` that goes to the State (state_machine.rs:438-447 `throw_event`, `throw_timer_event`). -/
def Out.toState : Out → Option SMREvent
  | .both e => some e
  | .timerOnly _ => none

/-- The triggers among the effects. -/
def trigsOf (l : List (Effect T)) : List SMRTrigger :=
  l.filterMap fun
    | .trigger t => some t
    | _ => none

/-- Effects inside the node: triggers, verification tasks (parallel.rs:13-95 `parallel_verify`), forwarded messages, block check
tasks (process.rs:1597-1611 `State::check_block`). -/
def NodeSys.absorb (n : NodeSys T) (l : List (Effect T)) : NodeSys T :=
  { n with
    sys := { n.sys with trigQ := n.sys.trigQ ++ trigsOf l }
    verifiedQ := n.verifiedQ ++ l.filterMap fun
      | .toVerified m => some m
      | _ => none
    verifying := n.verifying ++ l.filterMap fun
      | .spawnVerify m a => some (m, a)
      | _ => none
    checking := n.checking ++ l.filterMap fun
      | .spawnCheck h r hash b => some (h, r, hash, b)
      | _ => none
    log := n.log ++ l }

/-- The first effects, if the node crashes in the middle of an input (any iteration of process.rs:118-190 `State::run`). -/
def cutTo (cut : Option Nat) (l : List (Effect T)) : List (Effect T) :=
  match cut with
  | none => l
  | some k => l.take k

/-- The effects of a handled input take place; the node goes on unless it crashed, panicked or stopped
(process.rs:118-190 `State::run`). -/
def NodeSys.took (n : NodeSys T) (cut : Option Nat) (r : Except Err Bool × World T) : NodeSys T :=
  let n1 := n.absorb (cutTo cut r.2.log)
  { n1 with
    st := r.2.st
    down := match cut, r.1 with
      | none, .ok true => false
      | _, _ => true }

/-- The input an arm takes from its channel, and the node without it (process.rs:118-190 `State::run`). -/
def NodeSys.take (n : NodeSys T) : Arm T → Option (Input T × NodeSys T)
  | .raw m => some (.raw m, n)
  | .event =>
    match n.stQ with
    | [] => none
    | ev :: q => some (.event ev, { n with stQ := q })
  | .resp =>
    match n.respQ with
    | [] => none
    | r :: q => some (.resp r, { n with respQ := q })
  | .verified =>
    match n.verifiedQ with
    | [] => none
    | m :: q => some (.verified m, { n with verifiedQ := q })

/-- The empty channels and fresh tasks of overlord.rs:55-110 `Overlord::run`. -/
def NodeSys.fresh (addr : Address) (p : StartParams) (log : List (Effect T)) : NodeSys T :=
  { st := State.new addr p.initHeight p.interval p.list
    sys := TimerSys.boot p.interval p.timerConfig none
    stQ := [], verifiedQ := [], verifying := [], checking := [], respQ := [], log := log, down := true }

/-- The voting state machine handles the triggers in its channel one after the other (smr/mod.rs:47-58 `SMRProvider::run`), at a start. -/
def NodeSys.drain (n : NodeSys T) : List SMRTrigger → NodeSys T
  | [] => n
  | t :: ts =>
    let o := n.sys.smr.onTrigger t
    match o.res with
    | .ok | .err _ =>
      NodeSys.drain { n with
        sys := { n.sys with smr := o.next, evtQ := n.sys.evtQ ++ o.outs.map Out.event }
        stQ := n.stQ ++ o.outs.filterMap Out.toState } ts
    | .ended | .panic => { n with down := true }

variable [ContentCodec T] [DecidableEq T]

/-- One step; `none` if it is not possible. Composition of overlord.rs:55-110 `Overlord::run`; `checkDone` is the task of
process.rs:1860-1882 `check_current_block`, which reports only successes. -/
def NodeSys.act (addr : Address) (n : NodeSys T) : NAct T → Option (NodeSys T)
  | .start p e cut =>
    if n.down then
      let n0 : NodeSys T := NodeSys.fresh addr p n.log
      let n1 := n0.took cut (runArm .start e ⟨n0.st, []⟩)
      if n1.down then some n1
      else some (NodeSys.drain { n1 with sys := { n1.sys with trigQ := [] } } n1.sys.trigQ)
    else none
  | .crash => some { n with down := true }
  | .arm a e cut =>
    if n.down then none
    else
      match n.take a with
      | none => none
      | some (i, n1) => some (n1.took cut (runArm i e ⟨n.st, []⟩))
  | .verifyDone c i =>
    if n.down then none
    else
      match n.verifying[i]? with
      | none => none
      | some (m, a) =>
        some { n with
          verifying := n.verifying.eraseIdx i
          verifiedQ := n.verifiedQ ++ if verifyTask c m a then [m] else [] }
  | .checkDone i ok =>
    if n.down then none
    else
      match n.checking[i]? with
      | none => none
      | some (h, r, hash, _) =>
        some { n with
          checking := n.checking.eraseIdx i
          respQ := n.respQ ++
            if ok then [{ height := h, round := r, blockHash := hash, isPass := true }] else [] }
  | .smr =>
    if n.down then none
    else
      match n.sys.trigQ with
      | [] => none
      | t :: _ =>
        match n.sys.act .smr with
        | none => none
        | some sys =>
          some { n with sys := sys, stQ := n.stQ ++ (n.sys.smr.onTrigger t).outs.filterMap Out.toState }
  | .set => if n.down then none else (n.sys.act .set).map fun sys => { n with sys := sys }
  | .expire i => if n.down then none else (n.sys.act (.expire i)).map fun sys => { n with sys := sys }
  | .fire i => if n.down then none else (n.sys.act (.fire i)).map fun sys => { n with sys := sys }

/-- A node that has never been started (overlord.rs:34-44 `Overlord::new`). -/
def NodeSys.new (addr : Address) : NodeSys T :=
  NodeSys.fresh addr { initHeight := 0, interval := 0, list := [], timerConfig := none } []

/-- All steps one after the other (a schedule of overlord.rs:55-110 `Overlord::run`). -/
def NodeSys.run (addr : Address) (n : NodeSys T) : List (NAct T) → Option (NodeSys T)
  | [] => some n
  | a :: as =>
    match n.act addr a with
    | none => none
    | some n' => n'.run addr as

end

end Overlord
