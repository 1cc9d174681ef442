import Verif.Proofs.SelfCheck
import Verif.Props.Smr

/-!
# The self-checks documented in the voting state machine (C63)
-/

namespace Overlord
open Spec

/-- **C63** (partial: the fourth documented condition is false, see `C63_false_stale_proposal`). In every life of the voting state machine, fresh or resumed from a sound record,
whatever it is given, the other documented conditions hold before and after every trigger: a lock is on a block, the block is the current proposal, in round 0 there is
no lock before the precommit step, in the precommit step there is a current proposal exactly if there is a lock; and a lock is never from the future. The commented-out
tests of `check` would never fail. -/
theorem C63_checks_hold_partial (ts : List SMRTrigger) (h : OneLife ts) (r : SmrRec) (hr : r ∈ (Smr.init.run ts).2) (s : Smr) (hs : s = r.before ∨ s = r.out.next) :
    LockedOnABlock s ∧ LockMatches s ∧ NoEarlyLock s ∧ PrecommitNor s ∧ LockFromPast s := by
  have ok : Chk.Ok s := by
    have := (Chk.ok_life ts h).2 r hr
    rcases hs with rfl | rfl
    · exact this.1
    · exact this.2
  refine ⟨fun hc => ?_, fun l hl => (ok.same l hl).symm, fun h0 hst => ?_, ok.nor, ok.past⟩
  · obtain ⟨l, hl⟩ := Option.ne_none_iff_exists'.1 hc.1
    exact ok.onBlock l hl ((ok.same l hl) ▸ hc.2)
  · cases hl : s.lock with
    | none => rfl
    | some l =>
      rcases ok.past l hl with h1 | ⟨_, h2⟩
      · omega
      · rcases hst with hst | hst <;> simp [hst, Step.toNat] at h2

/-- A restart in the precommit step of round 2 with a lock, then a prevote quorum for another block in round 4, chokes, a proposal with evidence, a commit, a new height. -/
def Demo.resumed : List SMRTrigger :=
  [⟨.walInfo, .state, [], none, 2, 1, some { height := 1, round := 2, step := .precommit, polc := some ⟨2, Demo.blkA⟩ }⟩,
   Demo.timeout .precommitQC 1 2, Demo.cont 1 3, Demo.proposal Demo.blkA 1 3, Demo.prevoteQC Demo.blkB 1 4, Demo.cont 1 6, Demo.proposal Demo.blkA 1 6 (some 5),
   Demo.prevoteQC Demo.blkA 1 6, Demo.precommitQC Demo.blkA 1 6, Demo.status 2, Demo.timeout .proposal 2 0]

example : OneLife Demo.resumed ∧ OneLife Demo.busy ∧ (Smr.init.run Demo.resumed).2.length = 11 ∧
    ((Smr.init.run Demo.resumed).2.map fun r => r.out.next.lock) =
      [some ⟨2, Demo.blkA⟩, some ⟨2, Demo.blkA⟩, some ⟨2, Demo.blkA⟩, some ⟨2, Demo.blkA⟩, some ⟨4, Demo.blkB⟩, some ⟨4, Demo.blkB⟩, none, some ⟨6, Demo.blkA⟩,
       some ⟨6, Demo.blkA⟩, none, none] := by
  refine ⟨⟨?_, ?_⟩, ⟨?_, ?_⟩, ?_, ?_⟩
  · show ∀ t ∈ _, Tame t
    decide
  · intro t ht
    cases ht
    refine .inr ⟨_, rfl, rfl, ?_⟩
    intro l hl
    cases hl
    decide
  · show ∀ t ∈ _, Tame t
    decide
  · intro t ht
    cases ht
    left
    show Tame _
    decide
  · decide
  · decide

/-- **C63, counterexample to the fourth condition.** After a proposal was accepted in round 0 and the round ended by chokes, the machine is in the propose step of round 1
without a lock, and its current proposal is still that of round 0. -/
theorem C63_false_stale_proposal : ∃ ts : List SMRTrigger, OneLife ts ∧ ¬ FreshProposal (Smr.init.run ts).1 := by
  refine ⟨[Demo.status 1, Demo.proposal Demo.blkA 1 0, Demo.cont 1 1], ⟨?_, ?_⟩, ?_⟩
  · show ∀ t ∈ _, Tame t
    decide
  · intro t ht
    cases ht
    left
    show Tame _
    decide
  · intro h
    exact absurd (h (by decide) (by decide)) (by decide)

/-- **C63.** The stale proposal of the counterexample does no harm: while there is no lock, the current proposal has no influence on anything the machine will ever
order, report or return, whatever it is given. -/
theorem C63_stale_proposal_harmless (s : Smr) (h : s.lock = none) (x : Hash) (ts : List SMRTrigger) :
    (({ s with blockHash := x } : Smr).run ts).2.map (fun r => (r.trig, r.out.outs, r.out.res)) = (s.run ts).2.map (fun r => (r.trig, r.out.outs, r.out.res)) :=
  (Chk.alike_run (.inr ⟨h, x, rfl⟩) ts).symm

/-- With a lock it does have influence (the condition is needed). -/
example : let s : Smr := ⟨1, 3, .propose, Demo.blkA, some ⟨2, Demo.blkA⟩⟩
    (({ s with blockHash := Demo.blkB } : Smr).run [Demo.proposal Demo.blkB 1 3]).2.map (fun r => r.out.outs) ≠ (s.run [Demo.proposal Demo.blkB 1 3]).2.map (fun r => r.out.outs) := by
  decide

end Overlord
