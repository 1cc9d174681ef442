import Verif.Proofs.ReasonNet
import Verif.Proofs.Progress
import Verif.Proofs.ProgressDemo

/-!
# The reasons in chokes (C55)

A choke says why its sender is in the round it asks to end; so does every record of the write-ahead log.
-/

set_option linter.unusedSectionVars false
set_option linter.unusedVariables false

namespace Overlord
open Spec

variable {T : Type} [ContentCodec T] [DecidableEq T]

section
variable {f : Hash → Nat × T} {lists : Nat → List Node} {correct : Address → Bool} {mode : LeaderMode} {leader : Nat → Nat → Address}

/-- **C55.** A choke of a correct node for a round `r ≥ 1` explains how the node came to that round: it carries a certificate of round `r - 1` of its
height: a prevote certificate, a precommit certificate for no block, or a choke certificate with more than two thirds of the validators. The first two
have a quorum of released votes behind them. So in every history, with crashes and restarts. -/
theorem C55_chokes_explain (hE : Encodes T) (hgl : GoodLists lists) (few : FewFaulty lists correct) (hL : LeadersExist lists mode leader)
    (as : List (Address × NAct T)) (N : NetSys T) (hr : NetSys.new.run as = some N) (ok : OrderSchedule f lists correct mode as)
    (a : Address) (hc : correct a = true) (sc : SignedChoke) (h : .broadcast (.signedChoke sc) ∈ (N.nodes a).log) (h1 : 1 ≤ sc.choke.round) :
    Explains (lists sc.choke.height).length sc.choke.height sc.choke.round sc.choke.from ∧
      ∀ qc, sc.choke.from = .prevoteQC qc ∨ sc.choke.from = .precommitQC qc →
        Certified lists correct N.votes qc.voteType qc.height qc.round qc.blockHash :=
  (((Why.net_why hE hgl few hL hr ok).2 a hc).log _ h) h1

/-- **C55**, for the records in the write-ahead log: what a node loads at a restart explains the round it comes back to. -/
theorem C55_records_explain (hE : Encodes T) (hgl : GoodLists lists) (few : FewFaulty lists correct) (hL : LeadersExist lists mode leader)
    (as : List (Address × NAct T)) (N : NetSys T) (hr : NetSys.new.run as = some N) (ok : OrderSchedule f lists correct mode as)
    (a : Address) (hc : correct a = true) (w : WalInfo T) (h : w ∈ savedOf (N.nodes a).log) (h1 : 1 ≤ w.round) :
    Explains (lists w.height).length w.height w.round w.from ∧
      ∀ qc, w.from = .prevoteQC qc ∨ w.from = .precommitQC qc →
        Certified lists correct N.votes qc.voteType qc.height qc.round qc.blockHash := by
  obtain ⟨y, hy, he⟩ := List.mem_filterMap.1 h
  split at he
  · cases he
    exact (((Why.net_why hE hgl few hL hr ok).2 a hc).log _ hy) h1
  · cases he

/-- **C55**, for the node itself: as long as it is up and takes part in its height, the reason it would put into a choke explains its round. -/
theorem C55_states_explain (hE : Encodes T) (hgl : GoodLists lists) (few : FewFaulty lists correct) (hL : LeadersExist lists mode leader)
    (as : List (Address × NAct T)) (N : NetSys T) (hr : NetSys.new.run as = some N) (ok : OrderSchedule f lists correct mode as)
    (a : Address) (hc : correct a = true) (hd : (N.nodes a).down = false) (hp : (N.nodes a).st.consensusPower = true)
    (h1 : 1 ≤ (N.nodes a).st.round) :
    Explains (lists (N.nodes a).st.height).length (N.nodes a).st.height (N.nodes a).st.round (N.nodes a).st.updateFrom :=
  ((((Why.net_why hE hgl few hL hr ok).2 a hc).st hd).why hp h1).1

end

namespace PaceDemo

theorem σ_st (n : Nat) : σ.st n = Lasso.stAt pre cyc n := rfl

theorem pre_state (n : Nat) (hn : n = pre.length) : ∃ N, NetSys.new.run pre = some N ∧ σ.st n = N := by
  obtain ⟨N0, NP, N1, h0, hP, h1, _, hs⟩ := runs
  refine ⟨NP, hP, ?_⟩
  have := (Lasso.run_take h1 n (by omega)).1
  rw [List.take_left' hn.symm, hP] at this
  rw [σ_st]
  exact (Option.some.inj this).symm

/-- C55: validator 2 asks to end round 2, into which a prevote certificate of round 1 brought it; validator 1 asks to end round 1, after a choke
certificate of round 0. -/
example : ∃ as N, NetSys.new.run as = some N ∧ OrderSchedule blockOf lists correct .rotation as ∧
    .broadcast choke2 ∈ (N.nodes [2]).log ∧ .broadcast choke1 ∈ (N.nodes [1]).log ∧
    Explains 4 10 2 (.prevoteQC qc1) ∧ Explains 4 10 1 (.chokeQC (chokeQc [1, 2, 4])) := by
  obtain ⟨n, hn⟩ : ∃ n, n = pre.length := ⟨_, rfl⟩
  obtain ⟨N, hN, hs⟩ := pre_state n hn
  have hr := Pace.past_run σ n
  rw [hs] at hr
  have ho := Pace.past_ok ok n
  have hd : (match NetSys.new.run pre with
      | some N => decide (.broadcast choke2 ∈ (N.nodes [2]).log ∧ .broadcast choke1 ∈ (N.nodes [1]).log)
      | none => false) = true := by decide +kernel
  rw [hN] at hd
  have hd := of_decide_eq_true hd
  refine ⟨_, N, hr, ho, hd.1, hd.2, ?_, ?_⟩
  · exact (C55_chokes_explain (fun _ => rfl) goodLists fewFaulty leadersExist _ N hr ho [2] rfl _ hd.1 (by decide)).1
  · exact (C55_chokes_explain (fun _ => rfl) goodLists fewFaulty leadersExist _ N hr ho [1] rfl _ hd.2 (by decide)).1

end PaceDemo

end Overlord
