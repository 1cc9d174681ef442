import Verif.Proofs.GoodDemo

/-!
# C45: progress in a good round

`Spec/Good.lean` has the vocabulary: a round (`GoodRound`), the states of the nodes at its beginning (`Ready`), what
may happen during it (`GoodStep`), and that all messages arrived and were taken up (`Delivered`).
-/

set_option linter.unusedSectionVars false

namespace Overlord
open Spec

variable {T : Type} [ContentCodec T] [DecidableEq T]

/-- C45 (partial: `GoodStep` restricts what faulty validators may send to votes, proposals (not in the leader's name),
chokes of the round and outdated messages; without that the property is false, see `C45_weak_certificate_spoils_round`).

Let the live nodes have more than two thirds of the weight, let the leader be live, and let the live nodes be at the
beginning of the round, each of them unlocked, or locked on the block, or locked earlier than the lock the leader
shows. Take any schedule in which no timeout fires at a live node, no live node crashes, and the application and
storage do their work, with steps in any order and messages repeated, reordered, or arriving late. When the messages the live nodes sent one
another have arrived and have been taken up, every live node has committed the leader's block in that round. -/
theorem C45_good_round_commits_partial {g : GoodRound T} (hg : g.Ok) (hE : Encodes T) {N0 N : NetSys T}
    {as : List (Address × NAct T)} (hr : ∀ a, g.live a = true → Ready g a (N0.nodes a))
    (ha : AlongNet (fun N a x => g.live a = true → GoodStep g N0 N a x) N0 as) (hn : N0.run as = some N)
    (hd : Delivered g N0 N as) :
    ∀ a, g.live a = true → ∃ c res, .commitCall g.height c res ∈ doneSince N0 N a ∧
      c.content = g.block ∧ c.proof.blockHash = g.hash ∧ c.proof.round = g.round := by
  intro a hl
  obtain ⟨P, h⟩ := (Good.NetGood.init hg hr).run hg hE rfl ha hn
  exact h.done hg hd hl

/-- C45, safety half, for every point of such a schedule, however little was delivered: a live node still at the height
is running and is still in the round; one that left the height has committed the block. -/
theorem C45_nobody_leaves_partial {g : GoodRound T} (hg : g.Ok) (hE : Encodes T) {N0 N : NetSys T}
    {as : List (Address × NAct T)} (hr : ∀ a, g.live a = true → Ready g a (N0.nodes a))
    (ha : AlongNet (fun N a x => g.live a = true → GoodStep g N0 N a x) N0 as) (hn : N0.run as = some N) :
    ∀ a, g.live a = true →
      ((N.nodes a).down = false ∧ (N.nodes a).st.height = g.height ∧ (N.nodes a).sys.smr.height = g.height ∧
        (N.nodes a).sys.smr.round = g.round ∧ (N.nodes a).sys.smr.step ≠ .brake) ∨
      (g.height < (N.nodes a).st.height ∧ ∃ c res, .commitCall g.height c res ∈ doneSince N0 N a ∧
        c.content = g.block ∧ c.proof.blockHash = g.hash ∧ c.proof.round = g.round) := by
  intro a hl
  obtain ⟨P, h⟩ := (Good.NetGood.init hg hr).run hg hE rfl ha hn
  rcases h.nodes a hl with h1 | h1
  · exact .inl ⟨h1.core.up, h1.core.st.height, h1.core.smrH, h1.core.smrR, h1.core.step⟩
  · exact .inr ⟨h1.height, h1.comm⟩

/-- C45: without the restriction the property is false. One validator of weight 1 in 9 sends one node a certificate that
it alone signed, saying that no block was agreed on (`cert [4] 10 0 .precommit []`); that node leaves the round, and
nobody commits, although all messages of the live nodes (weight 7 in 9) arrive. -/
theorem C45_weak_certificate_spoils_round : ∃ (g : GoodRound NetDemo.C) (N0 N : NetSys NetDemo.C)
    (as : List (Address × NAct NetDemo.C)), g.Ok ∧ Encodes NetDemo.C ∧ (∀ a, g.live a = true → Ready g a (N0.nodes a)) ∧
    AlongNet (fun N a x => g.live a = true → OpenStep g N0 N a x) N0 as ∧ N0.run as = some N ∧ Delivered g N0 N as ∧
    ∀ a, g.live a = true → ∀ c res, .commitCall g.height c res ∉ doneSince N0 N a := by
  obtain ⟨N0, N, _, h1, h2, h3, h4, h5⟩ := GoodDemo.spoilt_demo
  refine ⟨GoodDemo.g, N0, N, _, GoodDemo.g_ok, GoodDemo.encodes, h1, h2, h3, h4, fun a ha c res hm => ?_⟩
  have : (GoodDemo.g.height, c) ∈ commitsAt (doneSince N0 N a) := List.mem_filterMap.2 ⟨_, hm, rfl⟩
  rw [h5 a ha] at this
  cases this

/-- The hypotheses are met by a round of validators 1, 2 and 3 (weights 2, 4, 1), which start, get the status
of height 10 and go through round 0, while validator 4 votes for another block, sends chokes
and proposes blocks of its own. -/
example : ∃ N0 N, NetSys.new.run (GoodDemo.schedG GoodDemo.before) = some N0 ∧ GoodDemo.g.Ok ∧
    (∀ a, GoodDemo.g.live a = true → Ready GoodDemo.g a (N0.nodes a)) ∧
    AlongNet (fun N a x => GoodDemo.g.live a = true → GoodStep GoodDemo.g N0 N a x) N0 (GoodDemo.schedG GoodDemo.round) ∧
    N0.run (GoodDemo.schedG GoodDemo.round) = some N ∧ Delivered GoodDemo.g N0 N (GoodDemo.schedG GoodDemo.round) ∧
    ∃ c res, .commitCall 10 c res ∈ doneSince N0 N [2] ∧ c.content = [5, 5] ∧ c.proof.blockHash = [5] ∧ c.proof.round = 0 := by
  obtain ⟨N0, N, h0, h1, h2, h3, h4⟩ := GoodDemo.demo
  exact ⟨N0, N, h0, GoodDemo.g_ok, h1, h2, h3, h4,
    C45_good_round_commits_partial GoodDemo.g_ok GoodDemo.encodes h1 h2 h3 h4 [2] (by decide +kernel)⟩

end Overlord
