import Verif.Proofs.ChainDemo

/-!
# C65: the chain keeps growing

C45 is about one round. Here the live nodes decide one height after the other, each going on to the next height as soon as
its application has answered the commit, so different nodes may be at different heights. `Spec/Chain.lean` has the
vocabulary: the rounds in which the heights are to be decided (`Plan`), the states of the nodes at the beginning (`Begins`),
what may happen (`ChainStep`).
-/

set_option linter.unusedSectionVars false

namespace Overlord
open Spec

variable {T : Type} [ContentCodec T] [DecidableEq T]

theorem Chain.netChain {g : Nat → GoodRound T} {K : Nat} (hp : Plan g K) (hK : 0 < K) (hE : Encodes T)
    {as0 as : List (Address × NAct T)} {N0 N : NetSys T} (h0 : NetSys.new.run as0 = some N0)
    (hb : ∀ a, (g 0).live a = true → Begins g K a (N0.nodes a))
    (ha : AlongNet (fun N a x => (g 0).live a = true → ChainStep g K N0 N a x) N0 as) (hn : N0.run as = some N) :
    ∃ P, Chain.NetChain g K P N0 as N := by
  have hf : ∀ a, (g 0).live a = true → Filed (N0.nodes a).st := fun a hl =>
    node_filed (net_steps a as0 _ _ h0) (hb a hl).ready.up
  simpa using (Chain.NetChain.init hp hK hb hf).run hp hE rfl ha hn

/-- C65 (partial: as in C45, what faulty validators send is restricted, and so is what may arrive before the node has
reached the height it belongs to: see `Timely`).

Let `N0` be any network that was reached by some schedule, in which the live nodes are at the beginning of the first round of the
plan. Take any schedule in which no timeout fires at a live node, no live node crashes, the application and the storage do
their work and every commit is answered with the next height. For every height of the plan: when the messages of this height and of the heights before it
have arrived and have been taken up, every live node has committed the block of this height. -/
theorem C65_chain_grows_partial {g : Nat → GoodRound T} {K : Nat} (hp : Plan g K) (hE : Encodes T)
    {as0 as : List (Address × NAct T)} {N0 N : NetSys T} (h0 : NetSys.new.run as0 = some N0)
    (hb : ∀ a, (g 0).live a = true → Begins g K a (N0.nodes a))
    (ha : AlongNet (fun N a x => (g 0).live a = true → ChainStep g K N0 N a x) N0 as) (hn : N0.run as = some N)
    {k : Nat} (hk : k < K) (hd : ∀ j, j ≤ k → Delivered (g j) N0 N as) :
    ∀ a, (g 0).live a = true → ∃ c res, .commitCall (g k).height c res ∈ doneSince N0 N a ∧
      c.content = (g k).block ∧ c.proof.blockHash = (g k).hash ∧ c.proof.round = (g k).round := by
  intro a hl
  obtain ⟨P, h⟩ := Chain.netChain hp (by omega) hE h0 hb ha hn
  exact h.done hp k hk hd a hl

/-- C65, safety half, for every point of such a schedule, however little was delivered: a live node whose height is the `k`-th of the plan
has committed exactly the blocks of the `k` heights before it, in order, once each, and is running; a node that has left
the plan behind has committed the whole plan. -/
theorem C65_commits_follow_plan_partial {g : Nat → GoodRound T} {K : Nat} (hp : Plan g K) (hK : 0 < K) (hE : Encodes T)
    {as0 as : List (Address × NAct T)} {N0 N : NetSys T} (h0 : NetSys.new.run as0 = some N0)
    (hb : ∀ a, (g 0).live a = true → Begins g K a (N0.nodes a))
    (ha : AlongNet (fun N a x => (g 0).live a = true → ChainStep g K N0 N a x) N0 as) (hn : N0.run as = some N) :
    ∀ a, (g 0).live a = true →
      (∃ k, k < K ∧ (N.nodes a).st.height = (g k).height ∧ (N.nodes a).down = false ∧
        (N.nodes a).st.authority = Authority.update (g k).list ∧ blocksOf (doneSince N0 N a) = planned g k) ∨
      ((g K).height ≤ (N.nodes a).st.height ∧ planned g K <+: blocksOf (doneSince N0 N a)) := by
  intro a hl
  obtain ⟨P, h⟩ := Chain.netChain hp hK hE h0 hb ha hn
  rcases h.nodes a hl with ⟨k, hat⟩ | hg
  · obtain ⟨n1, ⟨D, v1⟩, v2, _⟩ := hat.view
    refine .inl ⟨k, hat.lt, hat.height, ?_, ?_, hat.side.blocks⟩
    · obtain ⟨_, _, _, ⟨h1, _⟩ | ⟨k', _, old, new, st, h1⟩⟩ := hat.cur
      · exact h1.core.up
      · exact h1.inn.core.up
    · rw [← v2]; exact v1.core.st.authority
  · exact .inr ⟨hg.up, hg.blocks⟩

/-- C65: without `Timely` the property is false. Validators 1 and 2 are at height 11, validator 3 is still at
height 10 when the proposal of height 11 reaches it. It judges the proposal by the list of height 10, by which another validator
would lead height 11, and drops it. All messages arrived and were taken up; validator 3 has both certificates of
height 11, but not the block, and does not commit. -/
theorem C65_early_proposal_lost : ∃ (g : Nat → GoodRound NetDemo.C) (as0 as : List (Address × NAct NetDemo.C)) (N0 N : NetSys NetDemo.C),
    Plan g 2 ∧ Encodes NetDemo.C ∧ NetSys.new.run as0 = some N0 ∧ (∀ a, (g 0).live a = true → Begins g 2 a (N0.nodes a)) ∧
    AlongNet (fun N a x => (g 0).live a = true → EarlyChainStep g 2 N0 N a x) N0 as ∧ N0.run as = some N ∧
    (∀ k, k < 2 → Delivered (g k) N0 N as) ∧
    ∃ a, (g 0).live a = true ∧ ∀ c res, .commitCall (g 1).height c res ∉ doneSince N0 N a := by
  obtain ⟨N0, N, h0, h1, h2, h3, h4, h5⟩ := ChainDemo.early_demo
  refine ⟨_, _, _, N0, N, ChainDemo.plan_plan2, GoodDemo.encodes, h0, h1, h2, h3, h4, [3], by decide +kernel, fun c res hm => ?_⟩
  exact h5 c (List.mem_filterMap.2 ⟨_, hm, rfl⟩)

/-- The hypotheses are met by heights 10, 11 and 12 of validators 1, 2 and 3: validators 1 and 2 decide height 11, where
validator 5 is no longer on the list, and enter height 12 while validator 3 is still at height 10. There it gets a certificate of
height 11 and one of height 12, and at height 11 the proposal of height 12, keeps them and uses them when it gets to these heights. -/
example : ∃ N0 N, NetSys.new.run (ChainDemo.schedC GoodDemo.before) = some N0 ∧ Plan ChainDemo.plan 3 ∧
    (∀ a, (ChainDemo.plan 0).live a = true → Begins ChainDemo.plan 3 a (N0.nodes a)) ∧
    AlongNet (fun N a x => (ChainDemo.plan 0).live a = true → ChainStep ChainDemo.plan 3 N0 N a x) N0 (ChainDemo.schedC ChainDemo.run) ∧
    N0.run (ChainDemo.schedC ChainDemo.run) = some N ∧
    (∀ k, k < 3 → Delivered (ChainDemo.plan k) N0 N (ChainDemo.schedC ChainDemo.run)) ∧
    ∃ c res, .commitCall 12 c res ∈ doneSince N0 N [3] ∧ c.content = [6, 6, 6] := by
  obtain ⟨N0, N, h0, h1, h2, h3, h4⟩ := ChainDemo.demo
  obtain ⟨c, r, k1, k2, _⟩ := C65_chain_grows_partial ChainDemo.plan_plan GoodDemo.encodes h0 h1 h2 h3 (k := 2) (by decide)
    (fun j hj => h4 j (by omega)) [3] (by decide +kernel)
  exact ⟨N0, N, h0, ChainDemo.plan_plan, h1, h2, h3, h4, c, r, k1, k2⟩

end Overlord
