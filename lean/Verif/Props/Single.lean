import Verif.Proofs.Single
import Verif.Props.Node

/-!
# C70: a leader makes one proposal per round
-/

set_option linter.unusedVariables false

namespace Overlord
open M Spec

variable {T : Type} [ContentCodec T] [DecidableEq T]

/-- **C70** (partial). The proposals a node sends over its whole life, with crashes in the middle of any input and any
number of restarts, are strictly ordered by height and round.
Missing: schedules in which the State takes up an order that was given for another height (`InSync`; C70 is false
there, see below), `u64` rounds at the very end of their range, and starts at which the storage does not return the
record saved last. -/
theorem C70_proposals_ordered_partial (addr : Address) (as : List (NAct T)) (n : NodeSys T)
    (hr : (NodeSys.new addr).run addr as = some n) (ok : CalmSchedule addr as) :
    (proposalsOf n.log).Pairwise EarlierSlot := by
  have h := along_inv (P := Single.Inv) (fun n a n' h1 h2 h3 => Single.inv_step h1 h2 h3) as _ n (Single.inv_new addr) ok hr
  have := h.ordered.sorted
  unfold Single.slotsOf at this
  rw [List.pairwise_map] at this
  exact this

/-- **C70** (partial, see above). Of all messages a node sends in its whole life, at most one is a proposal for a given
height and round. -/
theorem C70_one_proposal_per_round_partial (addr : Address) (as : List (NAct T)) (n : NodeSys T)
    (hr : (NodeSys.new addr).run addr as = some n) (ok : CalmSchedule addr as) (i j : Nat) (p q : Proposal T)
    (hi : (proposalsOf n.log)[i]? = some p) (hj : (proposalsOf n.log)[j]? = some q)
    (h1 : p.height = q.height) (h2 : p.round = q.round) : i = j := by
  have hs := C70_proposals_ordered_partial addr as n hr ok
  rw [List.pairwise_iff_getElem] at hs
  obtain ⟨hi1, hi2⟩ := List.getElem?_eq_some_iff.1 hi
  obtain ⟨hj1, hj2⟩ := List.getElem?_eq_some_iff.1 hj
  rcases Nat.lt_trichotomy i j with h | h | h
  · have := hs i j hi1 hj1 h
    rw [hi2, hj2] at this
    unfold EarlierSlot at this
    omega
  · exact h
  · have := hs j i hj1 hi1 h
    rw [hi2, hj2] at this
    unfold EarlierSlot at this
    omega

/-- **C70.** A proposal leaves the node only after a record of its height and round, or of a later one, was saved: the record
that a restart will find is never before a proposal that was sent. -/
theorem C70_recorded_first_partial (addr : Address) (as : List (NAct T)) (n : NodeSys T)
    (hr : (NodeSys.new addr).run addr as = some n) (ok : CalmSchedule addr as) (p : Proposal T) (hp : p ∈ proposalsOf n.log) :
    ∃ w, lastSaved n.log = some w ∧ (p.height < w.height ∨ (p.height = w.height ∧ p.round ≤ w.round)) := by
  have h := along_inv (P := Single.Inv) (fun n a n' h1 h2 h3 => Single.inv_step h1 h2 h3) as _ n (Single.inv_new addr) ok hr
  obtain ⟨w, h1, h2⟩ := h.ordered.saved (p.height, p.round) (by
    unfold Single.slotsOf
    exact List.mem_map.2 ⟨p, hp, rfl⟩)
  exact ⟨w, h1, h2⟩

namespace StDemo

def slotsSeen (n : NodeSys C) : List (Nat × Nat × Hash) :=
  (proposalsOf n.log).map fun p => (p.height, p.round, p.blockHash)

/-- The record saved when round 3 of height 7 is entered. -/
def roundRec : WalInfo C :=
  { height := 7, round := 3, step := .propose, lock := none, «from» := .precommitQC (cert [2, 3, 4] 7 2 .precommit []) }

/-- The node becomes leader of round 3 of height 7 and proposes; it crashes (`cut`: after what number of effects),
restarts with what the storage holds, and becomes leader again in round 7. -/
def leads (cut : Option Nat) : List (NAct C) :=
  [.start params env none] ++ deliver (.aggregatedVote (cert [2, 3, 4] 7 2 .precommit [])) ++
  [.smr, .arm .event env cut, .crash, .start params (envRestart roundRec) none] ++
  deliver (.aggregatedVote (cert [2, 3, 4] 7 6 .precommit [])) ++ [.smr, .arm .event env none]

example : ((NodeSys.new [1]).run [1] (leads none)).map slotsSeen = some [(7, 3, [9]), (7, 7, [9])] ∧
    ((NodeSys.new [1]).run [1] (leads (some 3))).map slotsSeen = some [(7, 7, [9])] ∧
    ((NodeSys.new [1]).run [1] (leads (some 4))).map slotsSeen = some [(7, 3, [9]), (7, 7, [9])] := by
  refine ⟨?_, ?_, ?_⟩ <;> decide +kernel

example : CalmSchedule [1] (leads none) ∧ CalmSchedule [1] (leads (some 3)) ∧ CalmSchedule [1] (leads (some 4)) :=
  ⟨calm_of_calmB (by decide +kernel), calm_of_calmB (by decide +kernel), calm_of_calmB (by decide +kernel)⟩

/-- The application makes another block. -/
def envOther : Env C := { env with getBlock := fun _ => some ([8, 8], [8]) }

/-- An order to enter round 1 of height 7 is still pending when a status for height 9 is adopted and a certificate that
round 0 of height 9 failed arrives. -/
def twice : List (NAct C) :=
  [.start params env none] ++ deliver (.aggregatedVote (cert [2, 3, 4] 7 0 .precommit [])) ++
  [.smr, .arm (.raw (.richStatus { height := 9, interval := none, timerConfig := none, authorityList := nodes })) env none,
   .arm .verified env none] ++
  deliver (.aggregatedVote (cert [2, 3, 4] 9 0 .precommit [])) ++
  [.arm .event env none, .smr, .smr, .arm .event env none, .arm .event envOther none]

end StDemo

/-- C70 is false in general: a node takes up an order to enter round 1 of height 7 after it has adopted the status of height 9;
it enters round 1 of height 9 and proposes there; the proper order for that round follows, and it proposes another block
for the same height and round. No crash, no Byzantine message, nothing but certificates and the node's own blocks. -/
theorem C70_false_with_stale_orders :
    ∃ n p q, (NodeSys.new [1]).run [1] StDemo.twice = some n ∧ proposalsOf n.log = [p, q] ∧
      p.height = q.height ∧ p.round = q.round ∧ p.blockHash ≠ q.blockHash ∧ p.content ≠ q.content ∧ p.proposer = [1] ∧ q.proposer = [1] := by
  have h : ∃ n, (NodeSys.new [1]).run [1] StDemo.twice = some n ∧
      proposalsOf n.log = [⟨9, 1, [9, 9], [9], none, [1]⟩, ⟨9, 1, [8, 8], [8], none, [1]⟩] := by
    have hd : (match (NodeSys.new [1]).run [1] StDemo.twice with
        | some n => decide (proposalsOf n.log = [⟨9, 1, [9, 9], [9], none, [1]⟩, ⟨9, 1, [8, 8], [8], none, [1]⟩])
        | none => false) = true := by decide +kernel
    split at hd
    · rename_i n hn; exact ⟨n, hn, of_decide_eq_true hd⟩
    · cases hd
  obtain ⟨n, h1, h2⟩ := h
  exact ⟨n, _, _, h1, h2, rfl, rfl, by decide, by decide, rfl, rfl⟩

end Overlord
