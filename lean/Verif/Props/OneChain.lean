import Verif.Props.Net
import Verif.Props.Signed
import Verif.Props.Deliver
import Verif.Spec.OneChain
import Mathlib.Data.List.Perm.Basic
import Mathlib.Data.List.Sort

/-!
# C73: all correct nodes apply one and the same sequence of blocks
-/

set_option linter.unusedVariables false
set_option linter.unusedSectionVars false

namespace Overlord
open M Spec

variable {T : Type} [ContentCodec T] [DecidableEq T]

theorem mem_callsOf {l : List (Effect T)} {k : Nat} {c : Commit T} (h : (k, c) ∈ callsOf l) : ∃ r, .commitCall k c r ∈ l := by
  obtain ⟨x, hx, he⟩ := List.mem_filterMap.1 h
  cases x with
  | commitCall k' c' r =>
    simp only [Option.some.injEq, Prod.mk.injEq] at he
    obtain ⟨rfl, rfl⟩ := he
    exact ⟨r, hx⟩
  | _ => simp at he

/-- **C73** (partial). There is one chain - one block hash for every height - such that every commit that any correct node
hands to its application, at any time, with crashes and restarts, is that of the chain; and every node hands them over in
the order of the heights.
Missing: as in C44. -/
theorem C73_one_chain_partial (lists : Nat → List Node) (correct : Address → Bool) (hl : GoodLists lists) (few : FewFaulty lists correct)
    (as : List (Address × NAct T)) (N : NetSys T) (hr : NetSys.new.run as = some N)
    (fair : FairSchedule lists correct as) (keeps : KeepsLocks lists correct as) :
    ∃ chain : Nat → Hash, ∀ a, correct a = true →
      (∀ k c, (k, c) ∈ callsOf (N.nodes a).log → c.proof.blockHash = chain k) ∧
      (callsOf (N.nodes a).log).Pairwise fun x y => x.1 ≤ y.1 := by
  classical
  refine ⟨fun k => if h : ∃ a c, correct a = true ∧ (k, c) ∈ callsOf (N.nodes a).log then (Classical.choose (Classical.choose_spec h)).proof.blockHash else [],
    fun a ha => ⟨fun k c hc => ?_, ?_⟩⟩
  · have h : ∃ a c, correct a = true ∧ (k, c) ∈ callsOf (N.nodes a).log := ⟨a, c, ha, hc⟩
    simp only [h, dif_pos]
    obtain ⟨h1, h2⟩ := Classical.choose_spec (Classical.choose_spec h)
    obtain ⟨r, g1⟩ := mem_callsOf hc
    obtain ⟨r', g2⟩ := mem_callsOf h2
    exact C44_agreement_partial lists correct hl few as N hr fair keeps _ _ ha h1 k _ _ _ _ g1 g2
  · refine C72_heights_in_order a (stepsOf a as) _ (net_steps a as _ N hr) ?_
    refine net_along (ok := StartOk a) a as NetSys.new N hr (alongNet_mono (fun N b x h hba => ?_) as _ fair)
    subst hba
    exact (h ha).start

/-- **C73** (partial, as above). Two correct nodes that have been given blocks for the same heights up to `K` have been given
the same sequence of blocks up to `K`. -/
theorem C73_same_sequence_partial (lists : Nat → List Node) (correct : Address → Bool) (hl : GoodLists lists) (few : FewFaulty lists correct)
    (as : List (Address × NAct T)) (N : NetSys T) (hr : NetSys.new.run as = some N)
    (fair : FairSchedule lists correct as) (keeps : KeepsLocks lists correct as)
    (a b : Address) (ha : correct a = true) (hb : correct b = true) (K : Nat)
    (same : ∀ k, k ≤ K → (Applied (N.nodes a).log k ↔ Applied (N.nodes b).log k)) :
    appliedUpTo K (N.nodes a).log = appliedUpTo K (N.nodes b).log := by
  obtain ⟨chain, h⟩ := C73_one_chain_partial lists correct hl few as N hr fair keeps
  have mem : ∀ c, correct c = true → ∀ x, x ∈ appliedUpTo K (N.nodes c).log ↔ x.1 ≤ K ∧ Applied (N.nodes c).log x.1 ∧ x.2 = chain x.1 := by
    intro c hc x
    obtain ⟨k, hash⟩ := x
    simp only [appliedUpTo, List.mem_dedup, List.mem_filter, List.mem_map, decide_eq_true_eq]
    constructor
    · rintro ⟨⟨⟨k', cm⟩, h1, h2⟩, h3⟩
      simp only [Prod.mk.injEq] at h2
      obtain ⟨rfl, rfl⟩ := h2
      exact ⟨h3, ⟨cm, h1⟩, (h c hc).1 _ _ h1⟩
    · rintro ⟨h1, ⟨cm, h2⟩, h3⟩
      refine ⟨⟨(k, cm), h2, ?_⟩, h1⟩
      rw [Prod.mk.injEq]
      exact ⟨rfl, by rw [h3]; exact (h c hc).1 _ _ h2⟩
  have sorted : ∀ c, correct c = true → (appliedUpTo K (N.nodes c).log).Pairwise fun x y => x.1 ≤ y.1 := by
    intro c hc
    refine List.Pairwise.sublist (List.dedup_sublist _) (List.Pairwise.filter _ ?_)
    rw [List.pairwise_map]
    exact (h c hc).2
  have perm : (appliedUpTo K (N.nodes a).log).Perm (appliedUpTo K (N.nodes b).log) := by
    refine (List.perm_ext_iff_of_nodup (List.nodup_dedup _) (List.nodup_dedup _)).2 fun x => ?_
    refine (mem a ha x).trans (Iff.trans ?_ (mem b hb x).symm)
    constructor
    · rintro ⟨h1, h2, h3⟩; exact ⟨h1, (same _ h1).1 h2, h3⟩
    · rintro ⟨h1, h2, h3⟩; exact ⟨h1, (same _ h1).2 h2, h3⟩
  refine List.Perm.eq_of_pairwise ?_ (sorted a ha) (sorted b hb) perm
  intro x y hx hy h1 h2
  obtain ⟨-, -, e1⟩ := (mem a ha x).1 hx
  obtain ⟨-, -, e2⟩ := (mem b hb y).1 hy
  have : x.1 = y.1 := Nat.le_antisymm h1 h2
  exact Prod.ext this (by rw [e1, e2, this])

namespace NetDemo

/-- In a schedule with a crash, nodes 1 and 2 apply block `[5]` of height 9. -/
example : ∃ N, NetSys.new.run (sched agreeing) = some N ∧ FairSchedule lists correct (sched agreeing) ∧
    KeepsLocks lists correct (sched agreeing) ∧ appliedUpTo 9 (N.nodes [1]).log = [(9, [5])] ∧ appliedUpTo 9 (N.nodes [2]).log = [(9, [5])] := by
  have hd : (match NetSys.new.run (sched agreeing) with
      | some N => decide (appliedUpTo 9 (N.nodes [1]).log = [(9, [5])] ∧ appliedUpTo 9 (N.nodes [2]).log = [(9, [5])])
      | none => false) = true := by decide +kernel
  split at hd
  · rename_i N hN
    exact ⟨N, hN, stepB_sound (by decide +kernel), keepsB_sound (by decide +kernel), of_decide_eq_true hd⟩
  · cases hd

end NetDemo

end Overlord
