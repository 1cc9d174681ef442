import Verif.Proofs.Clock4
import Verif.Proofs.StateDemo

/-!
# C67: the pace of blocks
-/

namespace Overlord
open Spec

variable {T : Type} [ContentCodec T] [DecidableEq T]

/-- **C67 (setting).** Timing changes nothing in what a node does: for every input, with any timing, result, state and effects are
those of the model without time, so every other theorem holds whatever the timing is. Every effect is in the timed log. -/
theorem C67_same_behaviour (i : Input T) (e : Env T) (n : TWorld T) :
    (tRunArm i e n).1 = (runArm i e n.w).1 ∧ (tRunArm i e n).2.w = (runArm i e n.w).2 := Clk.erases_arm i e n

/-- The timed log of a node contains exactly its effects, in order. -/
theorem C67_all_recorded {a : Address} {h0 i0 t0 : Nat} {l : List Node} {n : TWorld T}
    (hn : ClockReach (TWorld.new a h0 i0 l t0) n) : acts n.tlog = n.w.log := (Clk.inv_reach hn).log.symm

/-- **C67 (lower bound).** In every history, with any timing: when a node starts a height after its own commit and leads round 0
of that height, the block interval in force (the last one that came with a status, at first the one it was created with) has
passed since every earlier start of a height, and since the node was created. -/
theorem C67_leader_waits {a : Address} {h0 i0 t0 : Nat} {l : List Node} {n : TWorld T}
    (hn : ClockReach (TWorld.new a h0 i0 l t0) n) (k : Tick T) (hk : k.input = .start ∨ ∃ hash, k.input = .event (.commit hash))
    {new : List (Timed T)} (hnew : (n.step k).tlog = n.tlog ++ new) {t : Nat} {st : SMRStatus} {x : Timed T} (hx : x ∈ new)
    (hs : HeightStarts t st x) (hlead : LeadsHeight k.env.mode (n.step k).w.st) :
    (∀ t' st' x', x' ∈ n.tlog → HeightStarts t' st' x' → t' + intervalInForce i0 (acts n.tlog) ≤ t) ∧
    t0 + intervalInForce i0 (acts n.tlog) ≤ t := by
  have inv := Clk.inv_reach hn
  obtain ⟨_, _, _, new', a4, _, _, a7, _⟩ :=
    Clk.commits_arm hk k.env (n.wait k) (inv.sane.trans (Nat.le_add_right _ _))
  have : new' = new := by
    have h : (n.step k).tlog = n.tlog ++ new' := a4
    rw [hnew] at h
    exact (List.append_cancel_left h).symm
  subst this
  have hb : n.heightStart + intervalInForce i0 (acts n.tlog) ≤ t := by
    have h := (a7 t st x hx hs).2 hlead
    have hi : (n.wait k).w.st.blockInterval = intervalInForce i0 (acts n.tlog) := by
      rw [← inv.log]; exact inv.interval
    rw [hi] at h
    exact h
  refine ⟨fun t' st' x' hx' hs' => ?_, ?_⟩
  · have := inv.starts t' st' x' hx' hs'
    omega
  · have := inv.begun
    omega

/-- **C67 (who pauses, and how long).** A node pauses at most once for an input; only after its own commit, when it leads round 0 of
the height the application named; the pause is not longer than the block interval in force. For any other input a node never
pauses: a height that starts because of a status from the application starts at once. -/
theorem C67_pauses {a : Address} {h0 i0 t0 : Nat} {l : List Node} {n : TWorld T}
    (hn : ClockReach (TWorld.new a h0 i0 l t0) n) (k : Tick T)
    {new : List (Timed T)} (hnew : (n.step k).tlog = n.tlog ++ new) :
    (new.filter isSleep).length ≤ 1 ∧
    ∀ t ms, .sleep t ms ∈ new →
      (k.input = .start ∨ ∃ hash, k.input = .event (.commit hash)) ∧
      ms ≤ intervalInForce i0 (acts n.tlog) ∧
      (∀ t' st' x', x' ∈ n.tlog → HeightStarts t' st' x' → t' + intervalInForce i0 (acts n.tlog) ≤ t + ms) ∧
      ∃ h c status, .commitCall h c (some status) ∈ acts new ∧
        (Authority.update status.authorityList).getProposer k.env.mode status.height INIT_ROUND = .ok n.w.st.address := by
  have inv := Clk.inv_reach hn
  have hsane : (n.wait k).heightStart ≤ (n.wait k).now := inv.sane.trans (Nat.le_add_right _ _)
  have hi : (n.wait k).w.st.blockInterval = intervalInForce i0 (acts n.tlog) := by
    rw [← inv.log]; exact inv.interval
  by_cases hk : Clk.MayCommit k.input
  · obtain ⟨_, _, _, new', a4, _, _, _, a8, a9⟩ := Clk.commits_arm hk k.env (n.wait k) hsane
    have : new' = new := by
      have h : (n.step k).tlog = n.tlog ++ new' := a4
      rw [hnew] at h
      exact (List.append_cancel_left h).symm
    subst this
    refine ⟨a9, fun t ms hx => ?_⟩
    obtain ⟨b1, b2, b3, h, c, status, b4, b5⟩ := a8 t ms hx
    rw [hi] at b3
    refine ⟨hk, by omega, fun t' st' x' hx' hs' => ?_, h, c, status, b4, b5⟩
    have := inv.starts t' st' x' hx' hs'
    have h2 : (n.wait k).heightStart = n.heightStart := rfl
    omega
  · obtain ⟨_, _, _, new', a4, _, a6, _⟩ := Clk.awake_arm hk k.env (n.wait k) hsane
    have : new' = new := by
      have h : (n.step k).tlog = n.tlog ++ new' := a4
      rw [hnew] at h
      exact (List.append_cancel_left h).symm
    subst this
    have no : ∀ t ms, .sleep t ms ∉ new' := by
      intro t ms hx
      obtain ⟨_, _, h⟩ := a6 _ hx
      cases h
    refine ⟨?_, fun t ms hx => absurd hx (no t ms)⟩
    have : new'.filter isSleep = [] := by
      rw [List.filter_eq_nil_iff]
      intro x hx
      obtain ⟨_, _, rfl⟩ := a6 _ hx
      simp [isSleep]
    rw [this]
    simp

/-- **C67 (exact end of the pause).** A pause ends exactly one block interval after the node's clock was set last. -/
theorem C67_pause_ends {a : Address} {h0 i0 t0 : Nat} {l : List Node} {n : TWorld T}
    (hn : ClockReach (TWorld.new a h0 i0 l t0) n) (k : Tick T)
    {new : List (Timed T)} (hnew : (n.step k).tlog = n.tlog ++ new) {t ms : Nat} (hx : .sleep t ms ∈ new) :
    t + ms = n.heightStart + intervalInForce i0 (acts n.tlog) := by
  have inv := Clk.inv_reach hn
  have hsane : (n.wait k).heightStart ≤ (n.wait k).now := inv.sane.trans (Nat.le_add_right _ _)
  obtain ⟨hk, _⟩ := (C67_pauses hn k hnew).2 t ms hx
  obtain ⟨_, _, _, new', a4, _, _, _, a8, a9⟩ := Clk.commits_arm hk k.env (n.wait k) hsane
  have : new' = new := by
    have h : (n.step k).tlog = n.tlog ++ new' := a4
    rw [hnew] at h
    exact (List.append_cancel_left h).symm
  subst this
  obtain ⟨_, _, b3, _⟩ := a8 t ms hx
  rw [← inv.log, ← inv.interval]
  exact b3

/-- **C67 (what sets the clock).** The clock is set when the node is created, when it starts a height (to the time of the start),
when it takes up a proposal that names the leader of its round as proposer, and (if it holds the leader's proposal) when it enters
a round; by nothing else. -/
theorem C67_clock (n : TWorld T) (k : Tick T) (h : (n.step k).heightStart ≠ n.heightStart) :
    (∃ st x, x ∈ (n.step k).tlog ∧ HeightStarts (n.step k).heightStart st x) ∨
    (∃ sp, k.input = .verified (.signedProposal sp) ∧ n.w.st.authority.contains sp.proposal.proposer = true ∧
      n.w.st.authority.getProposer k.env.mode sp.proposal.height sp.proposal.round = .ok sp.proposal.proposer) ∨
    (∃ h r lr lp f ni nc, k.input = .event (.newRoundInfo h r lr lp f ni nc)) := by
  rcases Clk.set_arm k.input k.env (n.wait k) with (h' | h') | h' | ⟨r, lr, lp, f, hh, ni, nc, h'⟩
  · exact absurd h' h
  · exact .inl h'
  · exact .inr (.inl h')
  · exact .inr (.inr ⟨hh, r, lr, lp, f, ni, nc, h'⟩)

/-! ## A history, and the clock in the hands of an outsider -/

namespace ClockDemo
open StDemo

def tick (gap : Nat) (i : Input C) : Tick C := ⟨env, i, gap, []⟩
/-- Validator 1 of four, which leads height 8, created at time 1000 with interval 1000. -/
def n0 : TWorld C := TWorld.new [1] 6 1000 nodes 1000
def run (n : TWorld C) (ks : List (Tick C)) : TWorld C := ks.foldl (fun n k => n.step k) n

/-- Height 7 starts with a new interval; its block is certified. -/
def before : List (Tick C) :=
  [tick 500 (.verified (.richStatus ⟨7, some 3000, none, nodes⟩)),
   tick 0 (.verified (.signedProposal (prop 2 7 0 [5] [5, 5]))),
   tick 10 (.verified (.aggregatedVote (cert [2, 3, 4] 7 0 .precommit [5, 5])))]

/-- A proposal for height 60 that names the leader of height 60 and is signed by nobody. -/
def forged : SignedProposal C := ⟨[], ⟨60, 0, [6], [6, 6], none, [1]⟩⟩

/-- It arrives and is taken up. -/
def attack : List (Tick C) := [tick 2000 (.raw (.signedProposal forged)), tick 0 (.verified (.signedProposal forged))]
/-- The time passes without it. -/
def calm : List (Tick C) := [tick 2000 (.raw (.signedVote (vote 2 1 0 .prevote []))), tick 0 (.raw (.signedVote (vote 2 1 0 .prevote [])))]

def last : Tick C := tick 490 (.event (.commit [5, 5]))

/-- Every input is handled and the loop goes on. -/
def okAll (n : TWorld C) : List (Tick C) → Bool
  | [] => true
  | k :: ks => (match (tRunArm k.input k.env (n.wait k)).1 with
      | .ok true => true
      | _ => false) && okAll (n.step k) ks

theorem reach_ok {m : TWorld C} (ks : List (Tick C)) (n : TWorld C) (h : ClockReach m n) (hk : okAll n ks = true) : ClockReach m (run n ks) := by
  induction ks generalizing n with
  | nil => exact h
  | cons k ks ih =>
    rw [okAll, Bool.and_eq_true] at hk
    refine ih _ (.step k h ?_) hk.2
    have := hk.1
    split at this
    · assumption
    · cases this

end ClockDemo

open ClockDemo in
/-- **C67, the counterexample.** One message that nobody signed, for a far height, from outside: the node holds it for the
proposal of a leader, sets its clock, and starts its next height 2 seconds later than it would have. (At most one block
interval is lost per height: `C67_pauses`.) -/
theorem C67_false_clock_set_by_outsider :
    verifyTask StDemo.env.crypto (.signedProposal forged) (Authority.update StDemo.nodes) = false ∧
    (∃ n, ClockReach n0 n ∧ n = run n0 (before ++ calm) ∧
      ∃ st, ∃ x ∈ (n.step last).tlog, HeightStarts 4500 st x ∧ st.height = 8) ∧
    (∃ n, ClockReach n0 n ∧ n = run n0 (before ++ attack) ∧
      ∃ st, ∃ x ∈ (n.step last).tlog, HeightStarts 6510 st x ∧ st.height = 8) := by
  refine ⟨by decide +kernel, ⟨_, reach_ok _ _ .refl (by decide +kernel), rfl, ⟨8, none, none⟩,
      .act 4500 (.trigger (stTrigger (.newHeight ⟨8, none, none⟩) [] none 0 8)), by decide +kernel, ⟨_, rfl, rfl⟩, rfl⟩,
    ⟨_, reach_ok _ _ .refl (by decide +kernel), rfl, ⟨8, none, none⟩,
      .act 6510 (.trigger (stTrigger (.newHeight ⟨8, none, none⟩) [] none 0 8)), by decide +kernel, ⟨_, rfl, rfl⟩, rfl⟩⟩

open ClockDemo in
/-- The hypotheses of `C67_leader_waits` and `C67_pauses` are met: the node of the example pauses after its commit, from 4000 to
4500, having started the height before at 1500, with interval 3000. -/
example : ∃ n new, ClockReach n0 n ∧ (n.step last).tlog = n.tlog ++ new ∧ .sleep 4000 500 ∈ new ∧
    (∃ st x, x ∈ new ∧ HeightStarts 4500 st x) ∧ (∃ st x, x ∈ n.tlog ∧ HeightStarts 1500 st x) ∧
    intervalInForce 1000 (acts n.tlog) = 3000 ∧ LeadsHeight last.env.mode (n.step last).w.st := by
  refine ⟨run n0 (before ++ calm), ((run n0 (before ++ calm)).step last).tlog.drop (run n0 (before ++ calm)).tlog.length,
    reach_ok _ _ .refl (by decide +kernel), by decide +kernel, by decide +kernel,
    ⟨⟨8, none, none⟩, .act 4500 (.trigger (stTrigger (.newHeight ⟨8, none, none⟩) [] none 0 8)), by decide +kernel, _, rfl, rfl⟩,
    ⟨⟨7, some 3000, none⟩, .act 1500 (.trigger (stTrigger (.newHeight ⟨7, some 3000, none⟩) [] none 0 7)), by decide +kernel, _, rfl, rfl⟩,
    by decide +kernel, ?_⟩
  unfold LeadsHeight
  decide +kernel

end Overlord
