import Verif.Spec.Good

/-!
# Specification vocabulary for several heights in a row (C65)

A plan: the rounds `g 0`, `g 1`, … in which the heights are decided, one height after the other, every one but the first in its
round 0 with a fresh block.
-/

namespace Overlord.Spec

variable {T : Type}

/-- A plan for `K` heights. The validator lists, the weights and the leaders may differ from height to height. -/
structure Plan (g : Nat → GoodRound T) (K : Nat) : Prop where
  ok : ∀ k, k ≤ K → (g k).Ok
  next : ∀ k, (g (k + 1)).height = (g k).height + 1
  first : ∀ k, (g (k + 1)).round = INIT_ROUND ∧ (g (k + 1)).lock = none
  live : ∀ k, (g k).live = (g 0).live
  fresh : ∀ j k, (g j).hash = (g k).hash → j = k

/-- At the beginning of the first height, and nothing is known of the blocks of the later heights. -/
structure Begins (g : Nat → GoodRound T) (K : Nat) (a : Address) (n : NodeSys T) : Prop where
  ready : Ready (g 0) a n
  unseen : ∀ k, 0 < k → k < K → n.st.isFullTransaction.get? (g k).hash = none
  unproposed : ∀ k, 0 < k → k < K → ∀ sp, n.st.proposals.get (g k).height (g k).round ≠ .ok sp

/-- No timeout fires, the node does not crash. -/
def Undisturbed : NAct T → Prop
  | .arm _ _ cut => cut = none
  | .fire _ => False
  | .crash => False
  | .start _ _ _ => False
  | _ => True

/-- By the validator list of the `i`-th height, too, the leader of the `j`-th height is the one that the plan has. -/
def Foreseen (g : Nat → GoodRound T) (i j : Nat) : Prop :=
  (Authority.update (g i).list).getProposer (g i).mode (g j).height (g j).round = .ok (g j).leader

/-- What may arrive at node `a`, which is at `height`, about a later height of the plan: votes of faulty validators, and what
live nodes sent, at most four heights too early. A proposal may arrive before its height only if its proposer is the leader
also by the lists of the heights the node has still to go through. -/
def Timely (g : Nat → GoodRound T) (K : Nat) (N0 N : NetSys T) (a : Address) (height : Nat) : NAct T → Prop
  | .arm (.raw m) _ _ => ∀ j, j < K → m.getHeight? = some (g j).height → height < (g j).height →
      (∃ sv, m = .signedVote sv ∧ (g j).live sv.voter = false) ∨
      (∃ c, (g j).live c = true ∧ SentTo N0 N c a m) ∧ (g j).height ≤ height + 4 ∧
        ((∃ sp, m = .signedProposal sp) → ∀ i, i < j → height ≤ (g i).height → Foreseen g i j)
  | _ => True

/-- The application answers a commit with the status of the next height. -/
def Advances (height : Nat) (list : List Node) : NAct T → Prop
  | .arm _ e _ => ∀ c, ∃ st, e.commit height c = some st ∧ st.height = height + 1 ∧ st.authorityList = list
  | _ => True

/-- The blocks a node has committed, with their heights, oldest first. -/
def blocksOf (l : List (Effect T)) : List (Nat × T) :=
  l.filterMap fun
    | .commitCall h c _ => some (h, c.content)
    | _ => none

/-- The blocks of the first `k` heights of the plan. -/
def planned (g : Nat → GoodRound T) (k : Nat) : List (Nat × T) :=
  (List.range k).map fun j => ((g j).height, (g j).block)

section
variable [ContentCodec T] [DecidableEq T]

/-- A step of a live node while the plan is carried out. Nodes may be at different heights; what is required of a step refers to
the height of the node that takes it. -/
def ChainStep (g : Nat → GoodRound T) (K : Nat) (N0 N : NetSys T) (a : Address) (x : NAct T) : Prop :=
  Undisturbed x ∧ ∀ k, k < K → (N.nodes a).st.height = (g k).height →
    GoodStep (g k) N0 N a x ∧ Timely g K N0 N a (g k).height x ∧ Advances (g k).height (g (k + 1)).list x

/-- As `ChainStep`, but any message may arrive before the node has reached its height. -/
def EarlyChainStep (g : Nat → GoodRound T) (K : Nat) (N0 N : NetSys T) (a : Address) (x : NAct T) : Prop :=
  Undisturbed x ∧ ∀ k, k < K → (N.nodes a).st.height = (g k).height →
    GoodStep (g k) N0 N a x ∧ Advances (g k).height (g (k + 1)).list x

end

end Overlord.Spec
