import Verif.Proofs.NoGap
import Verif.Props.OneChain
import Verif.Props.Forward

/-!
# C75: no height is left out
-/

set_option linter.unusedVariables false
set_option linter.unusedSectionVars false

namespace Overlord
open M Spec

variable {T : Type} [ContentCodec T] [DecidableEq T]

/-- A life that starts at height `h0` (see `StartsAt`). -/
def LifeFrom (h0 : Nat) (addr : Address) (as : List (NAct T)) : Prop :=
  Along (StartsAt h0 addr) addr (NodeSys.new addr) as

theorem along_mono {p q : NodeSys T → NAct T → Prop} (h : ∀ n a, p n a → q n a) {addr : Address} :
    ∀ (as : List (NAct T)) (n : NodeSys T), Along p addr n as → Along q addr n as
  | [], _, _ => trivial
  | a :: as, n, ok => ⟨h _ _ ok.1, fun n' hn' => along_mono h as n' (ok.2 n' hn')⟩

theorem gap_inv {h0 : Nat} {addr : Address} {as : List (NAct T)} {n : NodeSys T}
    (hr : (NodeSys.new addr).run addr as = some n) (ok : LifeFrom h0 addr as) :
    Gap.Inv h0 n ∧ (callsOf n.log).Pairwise fun a b => a.1 ≤ b.1 :=
  ⟨along_inv (P := Gap.Inv h0) (fun n a n' h1 h2 h3 => Gap.inv_step h1 h2 h3) as _ n (Gap.inv_new h0 addr) ok hr,
   C72_heights_in_order addr as n hr (along_mono (fun n a h => h.1) as _ ok)⟩

/-- **C75.** Over a node's whole life, with crashes in the middle of any input and any number of restarts, whatever
messages and certificates arrive and in whatever order: the heights handed to the application are `h0`, `h0 + 1`,
`h0 + 2` and so on; none is left out. -/
theorem C75_no_height_left_out (h0 : Nat) (addr : Address) (as : List (NAct T)) (n : NodeSys T)
    (hr : (NodeSys.new addr).run addr as = some n) (ok : LifeFrom h0 addr as) :
    heightsOf n.log = List.range' h0 (heightsOf n.log).length := by
  obtain ⟨h1, h2⟩ := gap_inv hr ok
  exact Gap.heights_range h1.good h2

/-- **C75.** A running validator at height `k` has handed over all heights from `h0` up to `k`, and so has a node whose storage
holds a record of height `k`: where a restart will resume, nothing before is missing. -/
theorem C75_nothing_missing (h0 : Nat) (addr : Address) (as : List (NAct T)) (n : NodeSys T)
    (hr : (NodeSys.new addr).run addr as = some n) (ok : LifeFrom h0 addr as) :
    (n.down = false → n.st.consensusPower = true → h0 ≤ n.st.height ∧ ∀ j, h0 ≤ j → j < n.st.height → Applied n.log j) ∧
    (∀ w, lastSaved n.log = some w → h0 ≤ w.height ∧ ∀ j, h0 ≤ j → j < w.height → Applied n.log j) := by
  obtain ⟨h1, h2⟩ := gap_inv hr ok
  exact ⟨h1.up, fun w hw => h1.good.saved w (List.mem_of_getLast? hw)⟩

/-- **C73** (partial, as there). Two correct nodes that started at the same height apply the same blocks: what
one of them has applied is the beginning of what the other one has applied. -/
theorem C73_prefix_partial (lists : Nat → List Node) (correct : Address → Bool) (hl : GoodLists lists) (few : FewFaulty lists correct)
    (as : List (Address × NAct T)) (N : NetSys T) (hr : NetSys.new.run as = some N)
    (fair : FairSchedule lists correct as) (keeps : KeepsLocks lists correct as) (h0 : Nat)
    (from0 : AlongNet (fun N a x => correct a = true → StartsAt h0 a (N.nodes a) x) NetSys.new as)
    (a b : Address) (ha : correct a = true) (hb : correct b = true) :
    blockSeq (N.nodes a).log <+: blockSeq (N.nodes b).log ∨ blockSeq (N.nodes b).log <+: blockSeq (N.nodes a).log := by
  obtain ⟨chain, h⟩ := C73_one_chain_partial lists correct hl few as N hr fair keeps
  have life : ∀ c, correct c = true → LifeFrom h0 c (stepsOf c as) := by
    intro c hc
    refine net_along (ok := StartsAt h0 c) c as NetSys.new N hr (alongNet_mono (fun N b x h hbc => ?_) as _ from0)
    subst hbc
    exact h hc
  have key : ∀ c, correct c = true → ∃ m, blockSeq (N.nodes c).log = (List.range' h0 m).map fun k => (k, chain k) := by
    intro c hc
    refine ⟨(heightsOf (N.nodes c).log).length, ?_⟩
    rw [← C75_no_height_left_out h0 c _ _ (net_steps c as _ N hr) (life c hc)]
    have e : (callsOf (N.nodes c).log).map (fun x => (x.1, x.2.proof.blockHash)) =
        ((callsOf (N.nodes c).log).map Prod.fst).map fun k => (k, chain k) := by
      rw [List.map_map]
      refine List.map_congr_left fun x hx => ?_
      simp only [Function.comp_def]
      rw [(h c hc).1 x.1 x.2 hx]
    unfold blockSeq heightsOf
    rw [e, List.dedup_map_of_injective (fun x y hxy => (Prod.mk.inj hxy).1)]
  obtain ⟨i, e1⟩ := key a ha
  obtain ⟨j, e2⟩ := key b hb
  rw [e1, e2]
  have pre : ∀ i j, i ≤ j → ((List.range' h0 i).map fun k => (k, chain k)) <+: ((List.range' h0 j).map fun k => (k, chain k)) := by
    intro i j hij
    obtain ⟨d, rfl⟩ := Nat.exists_eq_add_of_le hij
    exact ⟨(List.range' (h0 + i) d).map fun k => (k, chain k), by rw [← List.map_append, List.range'_append_1]⟩
  rcases Nat.le_total i j with hij | hij
  · exact .inl (pre i j hij)
  · exact .inr (pre j i hij)

/-! ## The hypotheses can be met -/

/-- What the state of the node and its storage contribute to `StartsAt`, computed. -/
def startsB (h0 : Nat) (addr : Address) (n : NodeSys T) (a : NAct T) : Bool :=
  startOkB addr n a &&
  match a with
  | .start p _ _ => decide (lastSaved n.log = none → p.initHeight = h0)
  | .arm .verified _ _ =>
    match n.verifiedQ with
    | .richStatus st :: _ => decide (st.height ≤ n.st.height)
    | _ => true
  | _ => true

theorem startsB_sound {h0 : Nat} {addr : Address} {n : NodeSys T} {a : NAct T} (h : startsB h0 addr n a = true)
    (hn : ∀ x e c, a = .arm x e c → NextHeight e) (hs : ∀ p e c, a = .start p e c → NextHeight e) : StartsAt h0 addr n a := by
  simp only [startsB, Bool.and_eq_true] at h
  refine ⟨startOkB_sound h.1, ?_⟩
  have h2 := h.2
  split
  · exact ⟨hs _ _ _ rfl, of_decide_eq_true h2⟩
  · rename_i x e c
    refine ⟨hn _ _ _ rfl, ?_⟩
    rintro rfl st q hq
    dsimp only at h2
    rw [hq] at h2
    exact of_decide_eq_true h2
  · trivial

namespace StDemo

theorem next_env (e : Env C) (h : e.commit = env.commit) : NextHeight e := by
  intro k c st hst
  rw [h] at hst
  simp only [env, Option.some.injEq] at hst
  subst hst; rfl

theorem from_of {as : List (NAct C)} (h1 : alongB (startsB 7 [1]) [1] (NodeSys.new [1]) as = true) (h2 : ∀ a ∈ as, commitsB a) :
    LifeFrom 7 [1] as := by
  have key : ∀ (as : List (NAct C)) (n : NodeSys C), (∀ a ∈ as, commitsB a) → Along (fun n a => startsB 7 [1] n a = true) [1] n as →
      Along (StartsAt 7 [1]) [1] n as := by
    intro as
    induction as with
    | nil => intro n _ _; trivial
    | cons a as ih =>
      intro n h h'
      refine ⟨startsB_sound h'.1 ?_ ?_, fun n' hn' => ih n' (fun a' ha' => h a' (List.mem_cons_of_mem _ ha')) (h'.2 n' hn')⟩
      · rintro x e c rfl
        have : e.commit = env.commit ∧ e.mode = env.mode := h (.arm x e c) (by simp)
        exact next_env e this.1
      · rintro p e c rfl
        have : e.commit = env.commit ∧ e.mode = env.mode := h (.start p e c) (by simp)
        exact next_env e this.1
  exact key as _ h2 (alongB_sound (fun _ _ h => h) as _ h1)

/-- A crash in the middle of the commit of height 7, which is therefore handed over twice; then height 8. -/
example : LifeFrom 7 [1] committedTwice :=
  from_of (by decide +kernel) (by
    intro a ha
    simp only [committedTwice, deliver, List.cons_append, List.nil_append, List.mem_cons, List.not_mem_nil, or_false] at ha
    repeat (rcases ha with rfl | ha; trivial))

example : ((NodeSys.new [1]).run [1] committedTwice).map (fun n => ((callsOf n.log).map Prod.fst, heightsOf n.log)) =
    some ([7, 7, 8], [7, 8]) := by
  decide +kernel

/-- The node starts at height 7, is told by a status from outside that the others are at height 8, and commits height 8. -/
def skipping : List (NAct C) :=
  [.start params env none, .arm (.raw (.richStatus { height := 8, interval := none, timerConfig := none, authorityList := nodes })) env none,
   .arm .verified env none, .smr, .arm .event env none, .smr, .arm .event env none, .checkDone 0 true, .arm .resp env none] ++
  deliver (.aggregatedVote (cert [1, 3, 4] 8 0 .precommit [9])) ++ [.smr, .arm .event env none]

/-- The condition on statuses is needed: after a status of a later height the heights before it are left to whoever sent it. -/
example : ((NodeSys.new [1]).run [1] skipping).map (fun n => heightsOf n.log) = some [8] := by
  decide +kernel

end StDemo

namespace NetDemo

theorem from9 : AlongNet (fun N a x => correct a = true → StartsAt 9 a (N.nodes a) x) NetSys.new (sched agreeing) := by
  refine alongNetB_sound (ok := fun N a x => startsB 9 a (N.nodes a) x) _ _ (fun N y hy hb _ => ?_) (by decide +kernel)
  obtain ⟨a, d, rfl⟩ := mem_sched hy
  have hl : ∀ w, NextHeight (envN a w) := by
    intro w k c st hst
    simp only [envN, Option.some.injEq] at hst
    subst hst; rfl
  refine startsB_sound hb (fun x e c h => ?_) (fun p e c h => ?_) <;> cases d <;> simp only [D.to, reduceCtorEq, NAct.arm.injEq, NAct.start.injEq] at h <;>
    (obtain ⟨-, rfl, -⟩ := h; exact hl _)

/-- In a schedule with a crash, nodes 1 and 2 start at height 9 and apply the same block. -/
example : ∃ N, NetSys.new.run (sched agreeing) = some N ∧ FairSchedule lists correct (sched agreeing) ∧
    KeepsLocks lists correct (sched agreeing) ∧
    AlongNet (fun N a x => correct a = true → StartsAt 9 a (N.nodes a) x) NetSys.new (sched agreeing) ∧
    blockSeq (N.nodes [1]).log = [(9, [5])] ∧ blockSeq (N.nodes [2]).log = [(9, [5])] := by
  have hd : (match NetSys.new.run (sched agreeing) with
      | some N => decide (blockSeq (N.nodes [1]).log = [(9, [5])] ∧ blockSeq (N.nodes [2]).log = [(9, [5])])
      | none => false) = true := by decide +kernel
  split at hd
  · rename_i N hN
    exact ⟨N, hN, stepB_sound (by decide +kernel), keepsB_sound (by decide +kernel), from9, of_decide_eq_true hd⟩
  · cases hd

end NetDemo

end Overlord
