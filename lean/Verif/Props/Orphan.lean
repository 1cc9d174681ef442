import Verif.Proofs.Orphan
import Verif.Props.Panic

/-!
# What `run` leaves behind (C58)
-/

set_option linter.unusedVariables false

namespace Overlord
open Spec Orph

variable {T : Type} [ContentCodec T] [DecidableEq T]

/-- **C58** (partial). When `run` ends while the node is up (its future is dropped, or the State panics), the tasks it has spawned do only a bounded number of further steps, in whatever
order; then they all wait, with no timeout, verification or block check pending.
Missing: they do not end (`C58_tasks_never_end`). -/
theorem C58_tasks_fall_asleep_partial (hE : Encodes T) (mode : LeaderMode) (addr : Address) (as : List (NAct T)) (n : NodeSys T)
    (h : (NodeSys.new addr).run addr as = some n) (hs : Along (SoundInput mode) addr (NodeSys.new addr) as) (hup : n.down = false) :
    ∃ bound, ∀ xs o, (Orphans.of n).run xs = some o → xs.length ≤ bound ∧
      ((∀ x, o.act x = none) →
        o.sys.trigQ = [] ∧ o.sys.evtQ = [] ∧ o.sys.armed = [] ∧ o.sys.notify = [] ∧ o.verifying = [] ∧ o.checking = []) := by
  have I := of_inv (NoPanic.inv_run hE h hs hup)
  refine ⟨meas (Orphans.of n), fun xs o hx => ?_⟩
  obtain ⟨I', hm⟩ := run_inv xs I hx
  exact ⟨by omega, stuck_empty I'⟩

/-- **C58 is false:** the voting state machine and the timer never end after that; each holds the sender that keeps the other one waiting. -/
theorem C58_tasks_never_end (hE : Encodes T) (mode : LeaderMode) (addr : Address) (as : List (NAct T)) (n : NodeSys T)
    (h : (NodeSys.new addr).run addr as = some n) (hs : Along (SoundInput mode) addr (NodeSys.new addr) as) (hup : n.down = false) :
    ∀ xs o, (Orphans.of n).run xs = some o → o.smrUp = true ∧ o.timerUp = true := by
  intro xs o hx
  have I := (run_inv xs (of_inv (NoPanic.inv_run hE h hs hup)) hx).1
  exact ⟨I.smr, I.timer⟩

/-! ### Example -/

namespace StDemo

/-- The life of C48 without its last crash: a pending order, sleeping timeouts. -/
theorem leftSound : Along (SoundInput .rotation) [1] (NodeSys.new [1]) (life none).dropLast := by
  have h : life none = (life none).dropLast ++ [.crash] := rfl
  have := life_sound
  rw [h] at this
  revert this
  generalize (life none).dropLast = l
  generalize NodeSys.new [1] = n
  intro this
  induction l generalizing n with
  | nil => trivial
  | cons a l ih => exact ⟨this.1, fun n' hn => ih n' (this.2 n' hn)⟩

/-- When its `run` is dropped the tasks go on: the timer arms timeouts, they expire, the voting state machine is triggered by one of them and fails. -/
example : (match (NodeSys.new [1]).run [1] (life none).dropLast with
    | some n => match (Orphans.of n).run [.set, .set, .expire 0, .fire 0, .smr n.sys.smr] with
      | some o => decide (n.down = false ∧ o.smrUp = true ∧ o.timerUp = true ∧ o.sys.armed.length = 1)
      | none => false
    | none => false) = true := by decide +kernel

end StDemo

end Overlord
