import Verif.Spec.Orders
import Verif.Spec.Good

/-!
# Specification vocabulary for progress (C54)

Infinite histories of a network. `live a`: from some moment on the node `a` is not disturbed.
-/

namespace Overlord.Spec

variable {T : Type} [ContentCodec T] [DecidableEq T]

/-- An infinite history: at each moment one node takes a step, or none. -/
structure NetRun (T : Type) [ContentCodec T] [DecidableEq T] where
  st : Nat → NetSys T
  act : Nat → Option (Address × NAct T)
  start : st 0 = NetSys.new
  next : ∀ n a x, act n = some (a, x) → (st n).act a x = some (st (n + 1))
  idle : ∀ n, act n = none → st (n + 1) = st n

/-- Node `a` at moment `n`. -/
def NetRun.node (σ : NetRun T) (n : Nat) (a : Address) : NodeSys T := (σ.st n).nodes a

/-- The steps of correct nodes meet `NetStep` and `OrderStep`. -/
def NetRun.Ok (f : Hash → Nat × T) (lists : Nat → List Node) (correct : Address → Bool) (mode : LeaderMode) (σ : NetRun T) : Prop :=
  ∀ n a x, σ.act n = some (a, x) → correct a = true → NetStep lists correct (σ.st n) a x ∧ OrderStep f mode (σ.st n) a x

/-- From moment `n0` on, node `a` stays up; its tasks go on: every channel is read again and again, every sleeping timeout expires and is
delivered, every signature check ends; saving, signing and aggregating work; the rounds of the chokes it holds are below the last `u64`. -/
structure Served (σ : NetRun T) (n0 : Nat) (a : Address) : Prop where
  up : ∀ n, n0 ≤ n → (σ.node n a).down = false
  smr : ∀ n, n0 ≤ n → (σ.node n a).sys.trigQ ≠ [] → ∃ m, n ≤ m ∧ σ.act m = some (a, .smr)
  set : ∀ n, n0 ≤ n → (σ.node n a).sys.evtQ ≠ [] → ∃ m, n ≤ m ∧ σ.act m = some (a, .set)
  expire : ∀ n x, n0 ≤ n → x ∈ (σ.node n a).sys.armed →
    ∃ m i, n ≤ m ∧ σ.act m = some (a, .expire i) ∧ (σ.node m a).sys.armed[i]? = some x
  fire : ∀ n e, n0 ≤ n → e ∈ (σ.node n a).sys.notify →
    ∃ m i, n ≤ m ∧ σ.act m = some (a, .fire i) ∧ (σ.node m a).sys.notify[i]? = some e
  event : ∀ n, n0 ≤ n → (σ.node n a).stQ ≠ [] → ∃ m e, n ≤ m ∧ σ.act m = some (a, .arm .event e none)
  verified : ∀ n, n0 ≤ n → (σ.node n a).verifiedQ ≠ [] → ∃ m e, n ≤ m ∧ σ.act m = some (a, .arm .verified e none)
  verify : ∀ n p, n0 ≤ n → p ∈ (σ.node n a).verifying →
    ∃ m c i, n ≤ m ∧ σ.act m = some (a, .verifyDone c i) ∧ (σ.node m a).verifying[i]? = some p
  works : ∀ n b e cut, n0 ≤ n → σ.act n = some (a, .arm b e cut) → Works e ∧ ∀ l l', (e.crypto.aggregate l l').isSome = true
  rounds : ∀ n r, n0 ≤ n → (AMap.get? (σ.node n a).st.chokes.chokes r).isSome = true → r + 1 < 2 ^ 64

/-- Node `a` broadcasts the message in the step of moment `n`. -/
def NetRun.Broadcasts (σ : NetRun T) (n : Nat) (a : Address) (m : OverlordMsg T) : Prop :=
  .broadcast m ∈ doneSince (σ.st n) (σ.st (n + 1)) a

/-- From moment `n0` on, the chokes that a live node broadcasts arrive at every other live node, and pass its signature check. -/
structure ChokesArrive (σ : NetRun T) (n0 : Nat) (live : Address → Bool) : Prop where
  delivered : ∀ n a b sc, n0 ≤ n → live a = true → live b = true → a ≠ b → σ.Broadcasts n a (.signedChoke sc) →
    ∃ m e, n < m ∧ σ.act m = some (b, .arm (.raw (.signedChoke sc)) e none)
  pass : ∀ n m a b sc au c i, n0 ≤ n → n < m → live a = true → live b = true → σ.Broadcasts n a (.signedChoke sc) →
    σ.act m = some (b, .verifyDone c i) → (σ.node m b).verifying[i]? = some (.signedChoke sc, au) → verifyTask c (.signedChoke sc : OverlordMsg T) au = true

/-- The node takes part in height `k`, and its voting state machine is in round `r` of it and has not ordered a commit. -/
structure InRound (k r : Nat) (n : NodeSys T) : Prop where
  power : n.st.consensusPower = true
  height : n.st.height = k
  smr : n.sys.smr.height = k ∧ n.sys.smr.round = r ∧ n.sys.smr.step ≠ .commit

/-- Between the moments `n` and `m` the node `a` has come to a higher height than `k` or, at height `k`, to a higher round than `r`, or has asked
the application to commit a block of height `k`. -/
def Advanced (σ : NetRun T) (n m : Nat) (a : Address) (k r : Nat) : Prop :=
  k < (σ.node m a).st.height ∨ ((σ.node m a).st.height = k ∧ r < (σ.node m a).st.round) ∨
    ∃ c res, .commitCall k c res ∈ doneSince (σ.st n) (σ.st m) a

end Overlord.Spec
