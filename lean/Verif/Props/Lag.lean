import Verif.Props.Single
import Verif.Props.Deliver

/-!
# C31: a node that lags behind may contradict itself

The witness of `Props/Node.lean` uses a status from outside. The one here uses nothing but proposals and certificates with
enough votes: the node has fallen behind, and the certificates of two rounds arrive together.
-/

set_option linter.unusedVariables false

namespace Overlord
open M Spec

namespace StDemo

/-- No status from outside, no stop, one start, no crash; every environment does its job. -/
def plainB : NAct C → Bool
  | .arm (.raw m) _ cut => !m.isRichStatus && cut.isNone && (match m with
    | .stop => false
    | _ => true)
  | .arm _ _ cut => cut.isNone
  | .crash => false
  | .verifyDone _ _ => true
  | _ => true

/-- The node is at height 9. It has prevoted and precommitted for block `[5]` in round 0. The precommit certificate of
round 0 arrives together with the prevote certificate of round 2 for the same block (the others have not all seen the first one in
time, went on, and prevoted again for the block they were locked on). The voting machine orders a commit, then to enter round 3,
then to precommit there. The State commits and is at height 10; the proposal of height 10 arrives; the State takes up the second
and third orders. Later it gets to round 3 of height 10. -/
def lagging : List (NAct C) :=
  [.start { params with initHeight := 9 } env none] ++ deliver (.signedProposal (prop 4 9 0 [5, 5] [5])) ++
  [.smr, .arm .event env none, .checkDone 0 true, .arm .resp env none] ++
  deliver (.aggregatedVote (cert [2, 3, 4] 9 0 .prevote [5])) ++ [.smr, .arm .event env none] ++
  deliver (.aggregatedVote (cert [2, 3, 4] 9 0 .precommit [5])) ++
  deliver (.aggregatedVote (cert [2, 3, 4] 9 2 .prevote [5])) ++ [.smr, .smr, .arm .event env none] ++
  deliver (.signedProposal (prop 3 10 0 [6, 6] [6])) ++
  deliver (.aggregatedVote (cert [2, 3, 4] 10 2 .prevote [6])) ++
  [.arm .event env none, .arm .event env none, .smr, .smr, .arm .event env none, .arm .event env none, .checkDone 0 true,
   .arm .resp env none, .smr] ++
  deliver (.aggregatedVote (cert [2, 3, 4] 10 2 .prevote [6])) ++ [.smr, .arm .event env none, .arm .event env none]

end StDemo

/-- C31 is false in ordinary runs: no status from outside, no crash, no Byzantine message, no storage or application that fails, nothing but
a proposal per height and certificates of 3 of 4 validators. An order to precommit for block `[5]` in round 3 of height 9, taken up
after the block of height 9 was committed, makes the node release that precommit for round 3 of height 10; its proper
precommit of that round, for block `[6]`, follows. -/
theorem C31_false_in_ordinary_runs :
    ∃ n v w, (NodeSys.new [1]).run [1] StDemo.lagging = some n ∧ StDemo.lagging.all StDemo.plainB = true ∧
      Along (StartOk [1]) [1] (NodeSys.new [1]) StDemo.lagging ∧
      v ∈ votesOf n.log ∧ w ∈ votesOf n.log ∧
      v.vote = ⟨10, 3, .precommit, [5]⟩ ∧ w.vote = ⟨10, 3, .precommit, [6]⟩ ∧ v.voter = w.voter ∧
      (callsOf n.log).map Prod.fst = [9] := by
  have h : ∃ n, (NodeSys.new [1]).run [1] StDemo.lagging = some n ∧
      (∃ v ∈ votesOf n.log, v.vote = ⟨10, 3, .precommit, [5]⟩ ∧ v.voter = [1]) ∧
      (∃ v ∈ votesOf n.log, v.vote = ⟨10, 3, .precommit, [6]⟩ ∧ v.voter = [1]) ∧ (callsOf n.log).map Prod.fst = [9] := by
    have hd : (match (NodeSys.new [1]).run [1] StDemo.lagging with
        | some n => decide ((∃ v ∈ votesOf n.log, v.vote = ⟨10, 3, .precommit, [5]⟩ ∧ v.voter = [1]) ∧
            (∃ v ∈ votesOf n.log, v.vote = ⟨10, 3, .precommit, [6]⟩ ∧ v.voter = [1]) ∧ (callsOf n.log).map Prod.fst = [9])
        | none => false) = true := by decide +kernel
    split at hd
    · rename_i n hn; exact ⟨n, hn, of_decide_eq_true hd⟩
    · cases hd
  obtain ⟨n, h1, ⟨v, hv, e1, e2⟩, ⟨w, hw, e3, e4⟩, h2⟩ := h
  refine ⟨n, v, w, h1, by decide +kernel, ?_, hv, hw, e1, e3, by rw [e2, e4], h2⟩
  exact alongB_sound (ok := startOkB [1]) (fun n a h => startOkB_sound h) StDemo.lagging (NodeSys.new [1]) (by decide +kernel)

end Overlord
