import Verif.Proofs.Seeds4
import Verif.Proofs.StateDemo

/-!
# C68: The random order of hash tables does not matter

The specification is `Spec/Seeds.lean`.
-/

set_option linter.unusedSimpArgs false

namespace Overlord
open Spec

variable {T : Type} [ContentCodec T] [DecidableEq T]

/-! ## A history used as an example -/

namespace SeedDemo
open StDemo

/-- Aggregation that does not depend on the order: the signatures are sorted first. -/
def agg (l : List Signature) (_ : List Address) : Option Signature := some (l.insertionSort (fun a b => bytesLe a b)).flatten
def cr : Crypto := { StDemo.crypto [1] with aggregate := agg }

theorem cr_blind : OrderBlind cr := by
  intro l l' h
  show some _ = some _
  congr 2
  have := h.map Prod.fst
  have tot : Std.Total (fun a b : Signature => bytesLe a b = true) := ⟨fun a b => bytesLe_total a b⟩
  have tr : IsTrans Signature (fun a b : Signature => bytesLe a b = true) := ⟨fun a b c => bytesLe_trans⟩
  exact List.Perm.eq_of_pairwise (fun a b _ _ h1 h2 => bytesLe_antisymm h1 h2) (List.pairwise_insertionSort _ _) (List.pairwise_insertionSort _ _)
    ((List.perm_insertionSort _ _).trans (this.trans (List.perm_insertionSort _ _).symm))

def env (sh : Shuffle) : Env C := { StDemo.env with
  crypto := cr, sh := sh, commit := fun h _ => if h = 8 then some ⟨9, none, none, nodes⟩ else none }

/-- The node starts and is told that height 7 is over; it leads height 8, gets four prevotes (three alike), two votes of
height 9, chokes of three others, goes to round 1 because of them, chokes there, and is told that height 8 is over. -/
def ins (sh : Shuffle) : List (Env C × Input C) :=
  [.start, .verified (.richStatus ⟨8, none, none, nodes⟩),
    .verified (.signedVote (vote 3 8 0 .prevote [9])), .verified (.signedVote (vote 4 8 0 .prevote [6])),
    .verified (.signedVote (vote 2 8 0 .prevote [9])), .verified (.signedVote (vote 1 8 0 .prevote [9])),
    .verified (.signedVote (vote 2 9 0 .prevote [5])), .verified (.signedVote (vote 3 9 0 .prevote [7])),
    .verified (.signedChoke (choke 3 8 0 (.precommitQC mockInitQc))), .verified (.signedChoke (choke 2 8 0 (.precommitQC mockInitQc))),
    .verified (.signedChoke (choke 4 8 0 (.precommitQC mockInitQc))), .event (.newRoundInfo 8 1 none none (.chokeQC 0) none none),
    .event (.brake 8 1 none), .verified (.richStatus ⟨9, none, none, nodes⟩)].map fun i => (env sh, i)

theorem nodes_proper : ProperList nodes := ⟨by unfold Distinct; decide, by unfold Sized; decide⟩

theorem commits_proper (sh : Shuffle) : ProperCommits (env sh) := by
  intro k c st h
  have h : (if k = 8 then some (⟨9, none, none, nodes⟩ : Status) else none) = some st := h
  split at h
  · rename_i hk
    simp only [Option.some.injEq] at h
    subst h hk
    exact ⟨by decide, nodes_proper, [4], (by decide +kernel :
      (Authority.update nodes).getProposer .rotation 9 INIT_ROUND = .ok [4])⟩
  · cases h

theorem proper (sh : Shuffle) : ProperHistory (ins sh) := by
  constructor
  · intro p hp
    obtain ⟨i, hi, rfl⟩ := List.mem_map.mp hp
    refine ⟨fun _ => rfl, commits_proper sh, cr_blind, ?_⟩
    intro st hst
    dsimp only at hst
    subst hst
    simp only [List.mem_cons, Input.verified.injEq, OverlordMsg.richStatus.injEq, reduceCtorEq, List.not_mem_nil, or_false,
      false_or] at hi
    rcases hi with rfl | rfl <;> exact nodes_proper
  · intro p hp
    simp only [ins, List.map_cons, List.tail_cons, List.mem_cons, List.map_nil, List.not_mem_nil, or_false] at hp
    rcases hp with rfl | rfl | rfl | rfl | rfl | rfl | rfl | rfl | rfl | rfl | rfl | rfl | rfl <;> simp

theorem same (sh sh' : Shuffle) : SameInputs (ins sh) (ins sh') := by
  unfold SameInputs ins
  simp only [List.forall₂_map_left_iff, List.forall₂_map_right_iff]
  exact List.forall₂_same.mpr fun i _ => ⟨⟨sh', rfl⟩, rfl⟩

/-- The node leads height 8, has a prevote of validator 4 and a block with its certificate, commits the block, and the
commit is answered with a status of height 8 again, in which validator 5 has replaced validator 4. Then three validators
prevote for the same block. -/
def stale (sh : Shuffle) : List (Env C × Input C) :=
  [.start, .verified (.richStatus ⟨8, none, none, nodes⟩), .verified (.signedVote (vote 4 8 0 .prevote [6])),
    .verified (.signedProposal (prop 1 8 0 [5, 5] [5])), .resp ⟨8, 0, [5], true⟩,
    .verified (.aggregatedVote (cert [1, 2, 3] 8 0 .precommit [5])), .event (.commit [5]),
    .verified (.signedVote (vote 1 8 0 .prevote [9])), .verified (.signedVote (vote 2 8 0 .prevote [9])),
    .verified (.signedVote (vote 3 8 0 .prevote [9]))].map fun i => ({ StDemo.env with
      crypto := cr, sh := sh, commit := fun _ _ => some ⟨8, none, none, [⟨[1], 1, 1⟩, ⟨[2], 1, 1⟩, ⟨[3], 1, 1⟩, ⟨[5], 1, 1⟩]⟩ }, i)

theorem stale_same (sh sh' : Shuffle) : SameInputs (stale sh) (stale sh') := by
  unfold SameInputs stale
  simp only [List.forall₂_map_left_iff, List.forall₂_map_right_iff]
  exact List.forall₂_same.mpr fun i _ => ⟨⟨sh', rfl⟩, rfl⟩

end SeedDemo

/-! ## The theorems -/

/-- **C68.** Whatever order hash tables are iterated in, a node that gets the same inputs and answers is in the same
state and has done the same things, at every point of every proper history. -/
theorem C68_seeds_do_not_matter (a : Address) (initHeight interval : Nat) (l : List Node) (hl : ProperList l)
    (ins ins' : List (Env T × Input T)) (hi : SameInputs ins ins') (hp : ProperHistory ins) :
    SameEnd ((State.new a initHeight interval l).after ins) ((State.new a initHeight interval l).after ins') ∧
      SameWork ((State.new a initHeight interval l).trace ins) ((State.new a initHeight interval l).trace ins') :=
  Seed.new_same hl a initHeight interval hi hp

/-- **C68, decisions.** The proposals, votes and certificates sent, the reports to the voting logic, the commits, the blocks
asked for and checked, and the view changes reported are literally the same lists. -/
theorem C68_same_decisions (a : Address) (initHeight interval : Nat) (l : List Node) (hl : ProperList l)
    (ins ins' : List (Env T × Input T)) (hi : SameInputs ins ins') (hp : ProperHistory ins) :
    ((State.new a initHeight interval l).trace ins).filter plain = ((State.new a initHeight interval l).trace ins').filter plain :=
  Seed.work_plain (Seed.new_same hl a initHeight interval hi hp).2

section
open SeedDemo StDemo

/-- The example history meets the hypotheses for all orders. -/
example (sh sh' : Shuffle) : SameEnd (st0.after (ins sh)) (st0.after (ins sh')) ∧ SameWork (st0.trace (ins sh)) (st0.trace (ins sh')) :=
  C68_seeds_do_not_matter [1] 7 3000 nodes nodes_proper _ _ (same sh sh') (proper sh)

/-- The orders do show in it: the choke broadcast at the end names its voters in another order, and the cached votes are
checked in another order. But a certificate is broadcast in both runs, and both go on to height 9. -/
example : st0.trace (ins .same) ≠ st0.trace (ins .rev) ∧
    (st0.trace (ins .same)).filter isSigCheck ≠ (st0.trace (ins .rev)).filter isSigCheck ∧
    (∃ q, Effect.broadcast (.aggregatedVote q) ∈ (st0.trace (ins .same)).filter plain) ∧
    (st0.after (ins .same)).map State.height = some 9 ∧ (st0.after (ins .rev)).map State.height = some 9 := by
  refine ⟨by decide +kernel, by decide +kernel, ?_, by decide +kernel, by decide +kernel⟩
  have hd : ((st0.trace (ins .same)).filter plain).any (fun x => match x with
      | .broadcast (.aggregatedVote _) => true
      | _ => false) = true := by decide +kernel
  obtain ⟨x, hx, hq⟩ := List.any_eq_true.mp hd
  split at hq
  · exact ⟨_, hx⟩
  · cases hq

/-- **C68, what is needed.** When a commit is answered with a status of the same height and another list (nothing else is
improper here), the votes already collected stay while their voters are replaced. From then on, whether a quorum is noticed
depends on the order in which the hash table is iterated: with one order the certificate is made and broadcast, with another
it is not. -/
theorem C68_false_after_stale_answer :
    SameInputs (stale .same) (stale .rev) ∧
    (∀ p ∈ stale .same, (∀ b, p.1.walSave b = true) ∧ OrderBlind p.1.crypto ∧
      ∀ k c st, p.1.commit k c = some st → ProperList st.authorityList) ∧
    (st0.trace (stale .same)).filter plain ≠ (st0.trace (stale .rev)).filter plain ∧
    (∀ q, Effect.broadcast (.aggregatedVote q) ∉ st0.trace (stale .same)) ∧
    (∃ q, Effect.broadcast (.aggregatedVote q) ∈ st0.trace (stale .rev)) := by
  refine ⟨stale_same _ _, ?_, by decide +kernel, ?_, ?_⟩
  · intro p hp
    obtain ⟨i, _, rfl⟩ := List.mem_map.mp hp
    refine ⟨fun _ => rfl, cr_blind, fun k c st h => ?_⟩
    simp only [Option.some.injEq] at h
    subst h
    exact ⟨by unfold Distinct; decide, by unfold Sized; decide⟩
  · have hd : (st0.trace (stale .same)).all (fun x => match x with
        | .broadcast (.aggregatedVote _) => false
        | _ => true) = true := by decide +kernel
    intro q hq
    exact absurd (List.all_eq_true.mp hd _ hq) (by simp)
  · have hd : (st0.trace (stale .rev)).any (fun x => match x with
        | .broadcast (.aggregatedVote _) => true
        | _ => false) = true := by decide +kernel
    obtain ⟨x, hx, hq⟩ := List.any_eq_true.mp hd
    split at hq
    · exact ⟨_, hx⟩
    · cases hq

end

end Overlord
