import Verif.Model.Node

/-!
# The public object: `Overlord`, its handlers and the channel between them

Models `/repo/src/overlord.rs` as a user sees it: calls on one `Overlord` object (`new`, `get_handler`, `run`), on its handlers (`send_msg`) and the steps of
the tasks that `run` starts. The tasks are the `NodeSys` of `Model/Node.lean`; here the messages from outside come from the handlers' channel.

Simplifications:
* the `Context` (tracing data) that travels with a message is left out;
* `send_msg` checks and sends in one step (in between the channel may close: an error too, of another kind);
* all handlers are clones of one sender, so that one `send` stands for all of them;
* the object itself outlives its `run` (it is borrowed by it), so the channel never loses its last sender.
-/

namespace Overlord

/-- overlord.rs:17-24 `Overlord`: which of the objects are still there. -/
structure Piles where
  sender : Bool
  stateRx : Bool
  address : Option Address
  consensus : Bool
  crypto : Bool
  wal : Bool
deriving DecidableEq, Repr

/-- overlord.rs:76-92, part of `run`: the objects are taken one after the other; the first missing one panics (`none`). -/
def Piles.takeAll (p : Piles) : Piles × Option Address :=
  if p.stateRx = false then (p, none)
  else
    let p := { p with stateRx := false }
    match p.address with
    | none => (p, none)
    | some a =>
      let p := { p with address := none }
      if p.consensus = false then (p, none)
      else
        let p := { p with consensus := false }
        if p.crypto = false then (p, none)
        else
          let p := { p with crypto := false }
          if p.wal = false then (p, none)
          else ({ p with wal := false }, some a)

/-- One `Overlord` object: overlord.rs:17-24 `Overlord`, the channel of its handlers, the tasks of its `run`. -/
structure Api (T : Type) where
  piles : Piles
  /-- messages in the handlers' channel (FIFO) -/
  queue : List (OverlordMsg T)
  /-- the receiver of this channel is gone -/
  closed : Bool
  /-- the tasks of `run`, and what this node did in earlier runs -/
  node : NodeSys T
deriving DecidableEq, Repr

/-- What can happen to an object. -/
inductive Call (T : Type) where
  /-- `get_handler` -/
  | getHandler
  /-- `send_msg` on a handler -/
  | send (m : OverlordMsg T)
  /-- `run`; `cut = some k`: the process crashes after the first `k` effects of the start -/
  | run (p : StartParams) (e : Env T) (cut : Option Nat)
  /-- the State's loop takes the next message out of the handlers' channel; `cut` as above -/
  | take (e : Env T) (cut : Option Nat)
  /-- any other step of the tasks -/
  | inner (x : NAct T)
  /-- the future returned by `run` is dropped, or the process ends -/
  | abort

/-- What a call returns, or what a step of the loop takes up. -/
inductive Ret (T : Type) where
  | handler
  | ok
  | channelErr
  | panicked
  | started
  | took (m : OverlordMsg T)
  | done
deriving DecidableEq, Repr

/-- Steps of the tasks that take nothing from outside (the other arms and tasks of overlord.rs:55-110 `Overlord::run`). -/
def NAct.isInner {T : Type} : NAct T → Bool
  | .arm (.raw _) _ _ => false
  | .start .. => false
  | .crash => false
  | _ => true

section
variable {T : Type}

/-- overlord.rs:34-44 `Overlord::new`; `prev` is what the node did in earlier runs (of other objects). -/
def Api.new (addr : Address) (prev : NodeSys T) : Api T :=
  { piles := { sender := true, stateRx := true, address := some addr, consensus := true, crypto := true, wal := true }
    queue := [], closed := false, node := prev }

/-- overlord.rs:55-110 `Overlord::run` owns the receiver: it goes when `run` ends, with all that is in the channel. -/
def Api.settle (a : Api T) (n : NodeSys T) : Api T :=
  if n.down then { a with node := n, queue := [], closed := true } else { a with node := n }

variable [ContentCodec T] [DecidableEq T]

/-- One call or step, and what it returns; `none` if it is not possible. overlord.rs:47-52 `get_handler`, overlord.rs:55-110 `run`,
overlord.rs:121-146 `send_msg`; the loop of process.rs:118-190 `State::run`. -/
def Api.act (addr : Address) (a : Api T) : Call T → Option (Api T × Ret T)
  | .getHandler => some (a, if a.piles.sender then .handler else .panicked)
  | .send m =>
    if a.closed then some (a, .channelErr)
    else some ({ a with queue := a.queue ++ [m] }, .ok)
  | .run p e cut =>
    match a.piles.takeAll with
    | (ps, none) =>
      if a.piles.stateRx ≠ ps.stateRx then some ({ a with piles := ps, queue := [], closed := true }, .panicked)
      else some ({ a with piles := ps }, .panicked)
    | (ps, some addr') =>
      match a.node.act addr' (.start p e cut) with
      | none => none
      | some n => some (({ a with piles := ps }).settle n, .started)
  | .take e cut =>
    match a.queue with
    | [] => none
    | m :: q =>
      if a.piles.stateRx then none
      else
        match a.node.act addr (.arm (.raw m) e cut) with
        | none => none
        | some n => some (({ a with queue := q }).settle n, .took m)
  | .inner x =>
    if x.isInner ∧ a.piles.stateRx = false then
      match a.node.act addr x with
      | none => none
      | some n => some (a.settle n, .done)
    else none
  | .abort =>
    if a.piles.stateRx then none
    else
      match a.node.act addr .crash with
      | none => none
      | some n => some (a.settle n, .done)

/-- A history of calls and steps: the object at its end and what each returned (overlord.rs:55-146). -/
def Api.calls (addr : Address) (a : Api T) : List (Call T) → Option (Api T × List (Call T × Ret T))
  | [] => some (a, [])
  | c :: cs =>
    match a.act addr c with
    | none => none
    | some (a', r) =>
      match a'.calls addr cs with
      | none => none
      | some (b, h) => some (b, (c, r) :: h)

end

end Overlord
