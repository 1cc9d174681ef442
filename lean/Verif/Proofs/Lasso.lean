import Verif.Proofs.Progress
import Verif.Proofs.GoodNet

/-! Infinite histories made of a finite schedule and a cycle that is repeated for ever (used for C54). -/

set_option linter.unusedSimpArgs false
set_option linter.unusedVariables false
set_option linter.unusedSectionVars false
set_option linter.unusedTactic false
set_option linter.unreachableTactic false

namespace Overlord.Lasso
open Spec

section
variable {T : Type}

/-- A node with another log. -/
def setLog (n : NodeSys T) (l : List (Effect T)) : NodeSys T := { n with log := l }

/-- A node without its log. -/
def bare (n : NodeSys T) : NodeSys T := setLog n []

theorem bare_eq {n m : NodeSys T} (h : bare m = bare n) : m = setLog n m.log := by
  cases n; cases m
  simp only [bare, setLog, NodeSys.mk.injEq] at h ⊢
  simp [h]

theorem drain_setLog (l : List (Effect T)) : ∀ (ts : List SMRTrigger) (n : NodeSys T), (setLog n l).drain ts = setLog (n.drain ts) l := by
  intro ts
  induction ts with
  | nil => intro n; rfl
  | cons t ts ih =>
    intro n
    have hs : (setLog n l).sys = n.sys := rfl
    cases hr : (n.sys.smr.onTrigger t).res <;> simp only [NodeSys.drain, hs, hr]
    · exact ih { n with
        sys := { n.sys with smr := (n.sys.smr.onTrigger t).next, evtQ := n.sys.evtQ ++ (n.sys.smr.onTrigger t).outs.map Out.event }
        stQ := n.stQ ++ (n.sys.smr.onTrigger t).outs.filterMap Out.toState }
    · exact ih { n with
        sys := { n.sys with smr := (n.sys.smr.onTrigger t).next, evtQ := n.sys.evtQ ++ (n.sys.smr.onTrigger t).outs.map Out.event }
        stQ := n.stQ ++ (n.sys.smr.onTrigger t).outs.filterMap Out.toState }
    · rfl
    · rfl

theorem took_setLog (n : NodeSys T) (l : List (Effect T)) (cut : Option Nat) (r : Except Err Bool × World T) :
    (setLog n l).took cut r = setLog (n.took cut r) (l ++ cutTo cut r.2.log) := rfl

variable [ContentCodec T] [DecidableEq T]

/-- A step does not depend on the log, and adds the same to it. -/
theorem act_setLog {addr : Address} {n n' : NodeSys T} {x : NAct T} (h : n.act addr x = some n') (l : List (Effect T)) :
    ∃ d, n'.log = n.log ++ d ∧ (setLog n l).act addr x = some (setLog n' (l ++ d)) := by
  have hd : (setLog n l).down = n.down := rfl
  cases x with
  | start p e cut =>
    simp only [NodeSys.act] at h ⊢
    rw [hd]
    split at h
    · rename_i h0
      rw [if_pos h0]
      have hf : NodeSys.fresh addr p (setLog n l).log = setLog (NodeSys.fresh addr p n.log) l := rfl
      rw [hf, took_setLog]
      have hst : (setLog (NodeSys.fresh addr p n.log) l).st = (NodeSys.fresh addr p n.log).st := rfl
      rw [hst]
      have hlog : ((NodeSys.fresh addr p n.log).took cut (runArm .start e ⟨(NodeSys.fresh addr p n.log).st, []⟩)).log =
        n.log ++ cutTo cut (runArm .start e ⟨(NodeSys.fresh addr p n.log).st, []⟩).2.log := rfl
      generalize hg : (NodeSys.fresh addr p n.log).took cut (runArm .start e ⟨(NodeSys.fresh addr p n.log).st, []⟩) = n1 at *
      generalize cutTo cut (runArm .start e ⟨(NodeSys.fresh addr p n.log).st, []⟩).2.log = d at *
      refine ⟨d, ?_⟩
      split at h
      · rename_i h1
        cases h
        refine ⟨hlog, ?_⟩
        rw [if_pos (show (setLog n' (l ++ d)).down = true from h1)]
      · rename_i h1
        cases h
        refine ⟨by rw [drain_log]; exact hlog, ?_⟩
        rw [if_neg (show ¬ (setLog n1 (l ++ d)).down = true from h1)]
        exact congrArg some (drain_setLog (l ++ d) n1.sys.trigQ { n1 with sys := { n1.sys with trigQ := [] } })
    · cases h
  | crash =>
    simp only [NodeSys.act] at h ⊢
    cases h
    exact ⟨[], by simp, by simp [setLog]⟩
  | arm b e cut =>
    simp only [NodeSys.act] at h ⊢
    rw [hd]
    split at h
    · cases h
    · rename_i h0
      rw [if_neg h0]
      cases ht : n.take b with
      | none => rw [ht] at h; cases h
      | some y =>
        obtain ⟨i, n1⟩ := y
        rw [ht] at h
        cases h
        have hl : n1.log = n.log := by
          cases b <;> simp only [NodeSys.take] at ht
          · cases ht; rfl
          all_goals (split at ht <;> cases ht; rfl)
        have ht' : (setLog n l).take b = some (i, setLog n1 l) := by
          cases b with
          | raw m => simp only [NodeSys.take, Option.some.injEq] at ht ⊢; cases ht; rfl
          | event =>
            simp only [NodeSys.take] at ht ⊢
            have hq : (setLog n l).stQ = n.stQ := rfl
            rw [hq]
            split at ht
            · cases ht
            · cases ht; rfl
          | resp =>
            simp only [NodeSys.take] at ht ⊢
            have hq : (setLog n l).respQ = n.respQ := rfl
            rw [hq]
            split at ht
            · cases ht
            · cases ht; rfl
          | verified =>
            simp only [NodeSys.take] at ht ⊢
            have hq : (setLog n l).verifiedQ = n.verifiedQ := rfl
            rw [hq]
            split at ht
            · cases ht
            · cases ht; rfl
        rw [ht']
        refine ⟨_, ?_, congrArg some (took_setLog n1 l cut _)⟩
        rw [← hl]
        rfl
  | verifyDone c i =>
    simp only [NodeSys.act] at h ⊢
    have hq : (setLog n l).verifying = n.verifying := rfl
    rw [hd, hq]
    split at h
    · cases h
    · rename_i h0
      rw [if_neg h0]
      split at h
      · cases h
      · cases h; exact ⟨[], by simp, by simp [setLog]⟩
  | checkDone i ok =>
    simp only [NodeSys.act] at h ⊢
    have hq : (setLog n l).checking = n.checking := rfl
    rw [hd, hq]
    split at h
    · cases h
    · rename_i h0
      rw [if_neg h0]
      split at h
      · cases h
      · cases h; exact ⟨[], by simp, by simp [setLog]⟩
  | smr =>
    simp only [NodeSys.act] at h ⊢
    have hq : (setLog n l).sys = n.sys := rfl
    rw [hd, hq]
    split at h
    · cases h
    · rename_i h0
      rw [if_neg h0]
      split at h
      · cases h
      · split at h
        · cases h
        · cases h; exact ⟨[], by simp, by simp [setLog]⟩
  | set =>
    simp only [NodeSys.act] at h ⊢
    have hq : (setLog n l).sys = n.sys := rfl
    rw [hd, hq]
    split at h
    · cases h
    · rename_i h0
      rw [if_neg h0]
      obtain ⟨s, hs, rfl⟩ := Option.map_eq_some_iff.1 h
      rw [hs]
      exact ⟨[], by simp, by simp [setLog]⟩
  | expire i =>
    simp only [NodeSys.act] at h ⊢
    have hq : (setLog n l).sys = n.sys := rfl
    rw [hd, hq]
    split at h
    · cases h
    · rename_i h0
      rw [if_neg h0]
      obtain ⟨s, hs, rfl⟩ := Option.map_eq_some_iff.1 h
      rw [hs]
      exact ⟨[], by simp, by simp [setLog]⟩
  | fire i =>
    simp only [NodeSys.act] at h ⊢
    have hq : (setLog n l).sys = n.sys := rfl
    rw [hd, hq]
    split at h
    · cases h
    · rename_i h0
      rw [if_neg h0]
      obtain ⟨s, hs, rfl⟩ := Option.map_eq_some_iff.1 h
      rw [hs]
      exact ⟨[], by simp, by simp [setLog]⟩

/-- The same network, but for what has been done. -/
def Same (N M : NetSys T) : Prop := ∀ a, bare (N.nodes a) = bare (M.nodes a)

theorem Same.node {N M : NetSys T} (h : Same N M) (a : Address) : N.nodes a = setLog (M.nodes a) (N.nodes a).log := bare_eq (h a)

theorem same_act {N N' M : NetSys T} {a : Address} {x : NAct T} (hs : Same N M) (h : N.act a x = some N') :
    ∃ M', M.act a x = some M' ∧ Same N' M' ∧ (∀ b, doneSince N N' b = doneSince M M' b) ∧
      (N.votes ⊆ M.votes → N'.votes ⊆ M'.votes) := by
  unfold NetSys.act at h
  split at h
  · cases h
  · rename_i n' hn
    cases h
    obtain ⟨d, h1, h2⟩ := act_setLog hn (M.nodes a).log
    have hm : setLog (N.nodes a) (M.nodes a).log = M.nodes a := (bare_eq (hs a).symm).symm
    rw [hm] at h2
    refine ⟨_, by unfold NetSys.act; rw [h2], ?_, ?_, ?_⟩
    · intro b
      simp only
      split
      · rfl
      · exact hs b
    · intro b
      unfold doneSince
      simp only
      split
      · rename_i hb
        subst hb
        rw [h1]; simp [setLog]
      · simp
    · intro hv
      simp only [h1, setLog]
      rw [List.drop_left, List.drop_left]
      exact List.append_subset.2 ⟨fun y hy => List.mem_append_left _ (hv hy), fun y hy => List.mem_append_right _ hy⟩

end

section
variable {T : Type} [ContentCodec T] [DecidableEq T]

/-- The step of moment `n`. -/
def actAt (pre cyc : List (Address × NAct T)) (n : Nat) : Option (Address × NAct T) :=
  if n < pre.length then pre[n]? else cyc[(n - pre.length) % cyc.length]?

def stAt (pre cyc : List (Address × NAct T)) : Nat → NetSys T
  | 0 => NetSys.new
  | n + 1 =>
    match actAt pre cyc n with
    | none => stAt pre cyc n
    | some (a, x) => ((stAt pre cyc n).act a x).getD (stAt pre cyc n)

variable {pre cyc : List (Address × NAct T)}

theorem actAt_lt {n : Nat} (h : n < pre.length + cyc.length) : actAt pre cyc n = (pre ++ cyc)[n]? := by
  unfold actAt
  split
  · rename_i h1; rw [List.getElem?_append_left h1]
  · rw [List.getElem?_append_right (by omega), Nat.mod_eq_of_lt (by omega)]

theorem actAt_add {n : Nat} (h : pre.length ≤ n) : actAt pre cyc (n + cyc.length) = actAt pre cyc n := by
  unfold actAt
  rw [if_neg (by omega), if_neg (by omega)]
  congr 1
  rw [show n + cyc.length - pre.length = (n - pre.length) + cyc.length by omega, Nat.add_mod_right]

theorem actAt_some (hc : cyc ≠ []) (n : Nat) : ∃ y, actAt pre cyc n = some y := by
  have hl : 0 < cyc.length := List.length_pos_iff.2 hc
  unfold actAt
  split
  · rename_i h; exact ⟨_, List.getElem?_eq_getElem h⟩
  · exact ⟨_, List.getElem?_eq_getElem (Nat.mod_lt _ hl)⟩

theorem actAt_mem {n : Nat} {y : Address × NAct T} (h : actAt pre cyc n = some y) (hn : pre.length ≤ n) : y ∈ cyc := by
  unfold actAt at h
  rw [if_neg (by omega)] at h
  exact List.mem_of_getElem? h

/-- Every step of the cycle is taken again and again. -/
theorem mem_again {y : Address × NAct T} (h : y ∈ cyc) (n : Nat) : ∃ m, n ≤ m ∧ actAt pre cyc m = some y := by
  obtain ⟨i, hi, rfl⟩ := List.mem_iff_getElem.1 h
  refine ⟨pre.length + i + n * cyc.length, ?_, ?_⟩
  · have : n * 1 ≤ n * cyc.length := Nat.mul_le_mul_left n (by omega)
    omega
  · unfold actAt
    rw [if_neg (by omega), show pre.length + i + n * cyc.length - pre.length = i + n * cyc.length by omega, Nat.add_mul_mod_self_right,
      Nat.mod_eq_of_lt hi]
    exact List.getElem?_eq_getElem hi

/-- The finite part is a run. -/
theorem run_take {N1 : NetSys T} (hr : NetSys.new.run (pre ++ cyc) = some N1) : ∀ n, n ≤ pre.length + cyc.length →
    NetSys.new.run ((pre ++ cyc).take n) = some (stAt pre cyc n) ∧ NetSys.run (stAt pre cyc n) ((pre ++ cyc).drop n) = some N1 := by
  intro n
  induction n with
  | zero => intro _; exact ⟨rfl, hr⟩
  | succ n ih =>
    intro hn
    obtain ⟨h1, h2⟩ := ih (by omega)
    have hlt : n < (pre ++ cyc).length := by rw [List.length_append]; omega
    have ha := actAt_lt (pre := pre) (cyc := cyc) (n := n) (by omega)
    rw [List.getElem?_eq_getElem hlt] at ha
    rw [List.drop_eq_getElem_cons hlt] at h2
    generalize hy : (pre ++ cyc)[n] = y at *
    obtain ⟨a, x⟩ := y
    simp only [NetSys.run] at h2
    split at h2
    · cases h2
    · rename_i N' hN
      have hst : stAt pre cyc (n + 1) = N' := by simp only [stAt, ha, hN, Option.getD_some]
      rw [hst]
      refine ⟨?_, h2⟩
      rw [← List.take_concat_get' _ _ hlt, Good.run_append h1, hy]
      simp [NetSys.run, hN]

/-- The finite part and the cycle: after the cycle the network is as before it. -/
structure Ok (pre cyc : List (Address × NAct T)) : Prop where
  ne : cyc ≠ []
  run : ∃ N1, NetSys.new.run (pre ++ cyc) = some N1
  same : Same (stAt pre cyc pre.length) (stAt pre cyc (pre.length + cyc.length))

def Enabled (pre cyc : List (Address × NAct T)) (n : Nat) : Prop :=
  ∀ a x, actAt pre cyc n = some (a, x) → (stAt pre cyc n).act a x = some (stAt pre cyc (n + 1))

theorem enabled_fin (h : Ok pre cyc) {n : Nat} (hn : n < pre.length + cyc.length) : Enabled pre cyc n := by
  intro a x ha
  obtain ⟨N1, hr⟩ := h.run
  have h2 := (run_take hr n (by omega)).2
  have hlt : n < (pre ++ cyc).length := by rw [List.length_append]; omega
  have ha' := actAt_lt (pre := pre) (cyc := cyc) (n := n) (by omega)
  rw [ha] at ha'
  rw [List.getElem?_eq_getElem hlt] at ha'
  rw [List.drop_eq_getElem_cons hlt, ← Option.some.inj ha'] at h2
  simp only [NetSys.run] at h2
  split at h2
  · cases h2
  · rename_i N' hN
    rw [hN]
    simp only [stAt, ha, hN, Option.getD_some]

theorem step_shift (hs : Same (stAt pre cyc n) (stAt pre cyc (n + cyc.length))) (he : Enabled pre cyc n) (hn : pre.length ≤ n) (hc : cyc ≠ []) :
    Enabled pre cyc (n + cyc.length) ∧ Same (stAt pre cyc (n + 1)) (stAt pre cyc (n + 1 + cyc.length)) ∧
    (∀ b, doneSince (stAt pre cyc n) (stAt pre cyc (n + 1)) b = doneSince (stAt pre cyc (n + cyc.length)) (stAt pre cyc (n + 1 + cyc.length)) b) ∧
    ((stAt pre cyc n).votes ⊆ (stAt pre cyc (n + cyc.length)).votes →
      (stAt pre cyc (n + 1)).votes ⊆ (stAt pre cyc (n + 1 + cyc.length)).votes) := by
  obtain ⟨⟨a, x⟩, ha⟩ := actAt_some (pre := pre) hc n
  have ha' := actAt_add (cyc := cyc) hn
  rw [ha] at ha'
  obtain ⟨M', h1, h2, h3, h4⟩ := same_act hs (he a x ha)
  have hst : stAt pre cyc (n + 1 + cyc.length) = M' := by
    rw [show n + 1 + cyc.length = (n + cyc.length) + 1 by omega]
    simp only [stAt, ha', h1, Option.getD_some]
  refine ⟨?_, by rw [hst]; exact h2, by rw [hst]; exact h3, by rw [hst]; exact h4⟩
  intro b y hb
  rw [ha'] at hb
  cases hb
  rw [h1, ← hst, show n + 1 + cyc.length = (n + cyc.length) + 1 by omega]

theorem votes_grow (h : ∀ n, Enabled pre cyc n) (hc : cyc ≠ []) : ∀ n d, (stAt pre cyc n).votes ⊆ (stAt pre cyc (n + d)).votes := by
  intro n d
  induction d with
  | zero => exact List.Subset.refl _
  | succ d ih =>
    refine List.Subset.trans ih ?_
    obtain ⟨⟨a, x⟩, ha⟩ := actAt_some (pre := pre) hc (n + d)
    have := h (n + d) a x ha
    unfold NetSys.act at this
    split at this
    · cases this
    · rw [show n + (d + 1) = n + d + 1 by omega, ← Option.some.inj this]
      exact List.subset_append_left _ _

theorem all (h : Ok pre cyc) : ∀ n, Enabled pre cyc n ∧ (pre.length ≤ n → Same (stAt pre cyc n) (stAt pre cyc (n + cyc.length))) := by
  have hl : 0 < cyc.length := List.length_pos_iff.2 h.ne
  intro n
  induction n using Nat.strongRecOn with
  | _ n ih =>
    have hsame : pre.length ≤ n → Same (stAt pre cyc n) (stAt pre cyc (n + cyc.length)) := by
      intro hn
      by_cases he : n = pre.length
      · rw [he]; exact h.same
      · obtain ⟨h1, h2⟩ := ih (n - 1) (by omega)
        have := (step_shift (h2 (by omega)) h1 (by omega) h.ne).2.1
        rwa [show n - 1 + 1 = n by omega] at this
    refine ⟨?_, hsame⟩
    by_cases hn : n < pre.length + cyc.length
    · exact enabled_fin h hn
    · obtain ⟨h1, h2⟩ := ih (n - cyc.length) (by omega)
      have := (step_shift (h2 (by omega)) h1 (by omega) h.ne).1
      rwa [show n - cyc.length + cyc.length = n by omega] at this

/-- The infinite history. -/
def run (h : Ok pre cyc) : NetRun T where
  st := stAt pre cyc
  act := actAt pre cyc
  start := rfl
  next := fun n a x ha => (all h n).1 a x ha
  idle := fun n hn => by
    obtain ⟨y, hy⟩ := actAt_some (pre := pre) h.ne n
    rw [hy] at hn
    cases hn

/-- Moments a whole number of cycles apart. -/
structure Shift (pre cyc : List (Address × NAct T)) (n m : Nat) : Prop where
  le : n ≤ m
  act : ∀ d, actAt pre cyc (m + d) = actAt pre cyc (n + d)
  same : ∀ d, Same (stAt pre cyc (n + d)) (stAt pre cyc (m + d))
  votes : ∀ d, (stAt pre cyc (n + d)).votes ⊆ (stAt pre cyc (m + d)).votes
  done : ∀ d b, doneSince (stAt pre cyc (n + d)) (stAt pre cyc (n + d + 1)) b = doneSince (stAt pre cyc (m + d)) (stAt pre cyc (m + d + 1)) b

theorem shift_refl (n : Nat) : Shift pre cyc n n := ⟨Nat.le_refl _, fun _ => rfl, fun _ _ => rfl, fun _ => List.Subset.refl _, fun _ _ => rfl⟩

theorem shift_one (h : Ok pre cyc) {n m : Nat} (hs : Shift pre cyc n m) (hm : pre.length ≤ m) : Shift pre cyc n (m + cyc.length) := by
  refine ⟨by have := hs.le; omega, fun d => ?_, fun d => ?_, fun d => ?_, fun d b => ?_⟩
  · rw [show m + cyc.length + d = m + d + cyc.length by omega, actAt_add (by omega)]; exact hs.act d
  · intro a
    rw [hs.same d a, show m + cyc.length + d = m + d + cyc.length by omega]
    exact (all h (m + d)).2 (by omega) a
  · refine List.Subset.trans (hs.votes d) ?_
    rw [show m + cyc.length + d = m + d + cyc.length by omega]
    exact votes_grow (fun n => (all h n).1) h.ne _ _
  · rw [hs.done d b]
    have := (step_shift ((all h (m + d)).2 (by omega)) (all h (m + d)).1 (by omega) h.ne).2.2.1 b
    rw [this]
    rw [show m + cyc.length + d = m + d + cyc.length by omega, show m + d + cyc.length + 1 = m + d + 1 + cyc.length by omega]

/-- Every moment is like one of the finite part. -/
theorem shifted (h : Ok pre cyc) : ∀ m, ∃ n, n < pre.length + cyc.length ∧ Shift pre cyc n m ∧ (n = m ∨ pre.length ≤ n) := by
  intro m
  have hl : 0 < cyc.length := List.length_pos_iff.2 h.ne
  induction m using Nat.strongRecOn with
  | _ m ih =>
    by_cases hm : m < pre.length + cyc.length
    · exact ⟨m, hm, shift_refl m, .inl rfl⟩
    · obtain ⟨n, h1, h2, h3⟩ := ih (m - cyc.length) (by omega)
      refine ⟨n, h1, ?_, .inr (by omega)⟩
      have := shift_one h h2 (by omega)
      rwa [show m - cyc.length + cyc.length = m by omega] at this

/-! ### The conditions on steps -/

def isStart : NAct T → Bool
  | .start .. => true
  | _ => false

theorem genuine_mono {lists : Nat → List Node} {correct : Address → Bool} {vs vs' : List (Address × Vote)} (h : vs ⊆ vs') {m : OverlordMsg T}
    (hg : Genuine lists correct vs m) : Genuine lists correct vs' m := by
  cases m with
  | signedVote sv => exact fun hc => h (hg hc)
  | aggregatedVote qc => exact Certified.mono (fun _ hx => h hx) hg
  | signedProposal sp => exact fun l hl => (hg l hl).imp fun _ hx => Certified.mono (fun _ hy => h hy) hx
  | signedChoke sc => exact fun qc h0 h1 h2 => Certified.mono (fun _ hx => h hx) (hg qc h0 h1 h2)
  | richStatus st => exact hg
  | stop => trivial

theorem step_same {f : Hash → Nat × T} {lists : Nat → List Node} {correct : Address → Bool} {mode : LeaderMode} {N M : NetSys T} {a : Address}
    {x : NAct T} (hs : Same N M) (hv : N.votes ⊆ M.votes) (hx : isStart x = false)
    (h : NetStep lists correct N a x ∧ OrderStep f mode N a x) (hen : ∃ N', N.act a x = some N') :
    NetStep lists correct M a x ∧ OrderStep f mode M a x := by
  obtain ⟨h, h'⟩ := h
  have hn := hs.node a
  have hn' : M.nodes a = setLog (N.nodes a) (M.nodes a).log := bare_eq (hs a).symm
  obtain ⟨N', hN⟩ := hen
  refine ⟨⟨?_, ?_, ?_, ?_, ?_, ?_, ?_⟩, ⟨?_, ?_, ?_, ?_⟩⟩
  all_goals try rw [hn']
  · have := h.inSync
    cases x with
    | arm b e cut => cases b <;> exact this
    | _ => trivial
  · have := h.rounds
    cases x <;> first | exact this | trivial
  · cases x <;> first | trivial | cases hx
  · have := h.answers
    cases x <;> first | exact this | trivial
  · have := h.saves
    cases x <;> first | exact this | trivial
  · have := h.given
    cases x <;> first | exact this | cases hx | trivial
  · have := h.genuine
    cases x with
    | arm b e cut =>
      cases b with
      | verified => exact fun m q h1 h2 => genuine_mono hv (this m q h1 h2)
      | _ => trivial
    | _ => trivial
  · have := h'.fixes
    cases x <;> first | exact this | trivial
  · cases x <;> first | trivial | cases hx
  · exact h'.mode
  · intro n' hn2 r hr
    obtain ⟨n1, hn1⟩ : ∃ n1, (N.nodes a).act a x = some n1 := by
      unfold NetSys.act at hN
      split at hN
      · cases hN
      · exact ⟨_, by assumption⟩
    obtain ⟨d, _, h2⟩ := act_setLog hn1 (M.nodes a).log
    rw [h2] at hn2
    cases hn2
    exact h'.chokes n1 hn1 r hr

/-- The conditions on steps hold in the infinite history. -/
theorem run_ok {f : Hash → Nat × T} {lists : Nat → List Node} {correct : Address → Bool} {mode : LeaderMode} (h : Ok pre cyc)
    (hs : ∀ n, n < pre.length + cyc.length → ∀ a x, actAt pre cyc n = some (a, x) → correct a = true →
      NetStep lists correct (stAt pre cyc n) a x ∧ OrderStep f mode (stAt pre cyc n) a x) (hn : ∀ y ∈ cyc, isStart y.2 = false) : (run h).Ok f lists correct mode := by
  intro m a x hx hc
  obtain ⟨N1, hr⟩ := h.run
  obtain ⟨n, h1, h2, h3⟩ := shifted h m
  have hx' : actAt pre cyc n = some (a, x) := by
    have := h2.act 0
    rw [Nat.add_zero, Nat.add_zero] at this
    rw [← this]; exact hx
  have h4 := hs n h1 a x hx' hc
  rcases h3 with h3 | h3
  · subst h3; exact h4
  · exact step_same (h2.same 0) (h2.votes 0) (hn _ (actAt_mem hx' h3)) h4 ⟨_, (all h n).1 a x hx'⟩

/-! ### Service -/

/-- The finite part for a node: from moment `n0` on it stays up; it takes expired timeouts, sleeping timeouts and verifications in order; the
cycle serves all its queues. -/
structure Serves (pre cyc : List (Address × NAct T)) (n0 : Nat) (a : Address) : Prop where
  up : ∀ n, n0 ≤ n → n < pre.length + cyc.length → ((stAt pre cyc n).nodes a).down = false
  chokes : ∀ n r, n0 ≤ n → n < pre.length + cyc.length → (AMap.get? ((stAt pre cyc n).nodes a).st.chokes.chokes r).isSome = true → r + 1 < 2 ^ 64
  works : ∀ n b e cut, n0 ≤ n → n < pre.length + cyc.length → actAt pre cyc n = some (a, .arm b e cut) →
    Works e ∧ ∀ l l', (e.crypto.aggregate l l').isSome = true
  first : ∀ n, n0 ≤ n → n < pre.length + cyc.length → (∀ i, actAt pre cyc n = some (a, .expire i) → i = 0) ∧
    (∀ i, actAt pre cyc n = some (a, .fire i) → i = 0) ∧ (∀ c i, actAt pre cyc n = some (a, .verifyDone c i) → i = 0)
  smr : (a, .smr) ∈ cyc
  set : (a, .set) ∈ cyc
  expire : (a, .expire 0) ∈ cyc
  fire : (a, .fire 0) ∈ cyc
  event : ∃ e, (a, .arm .event e none) ∈ cyc
  verified : ∃ e, (a, .arm .verified e none) ∈ cyc
  verify : ∃ c, (a, .verifyDone c 0) ∈ cyc

/-- From moment `n0` on, with all moments. -/
theorem Serves.every {n0 : Nat} {a : Address} (h : Ok pre cyc) (hs : Serves pre cyc n0 a) {m : Nat} (hm : n0 ≤ m) (hn0 : n0 ≤ pre.length) :
    ((stAt pre cyc m).nodes a).down = false ∧
    (∀ r, (AMap.get? ((stAt pre cyc m).nodes a).st.chokes.chokes r).isSome = true → r + 1 < 2 ^ 64) ∧
    (∀ b e cut, actAt pre cyc m = some (a, .arm b e cut) → Works e ∧ ∀ l l', (e.crypto.aggregate l l').isSome = true) ∧
    (∀ i, actAt pre cyc m = some (a, .expire i) → i = 0) ∧
    (∀ i, actAt pre cyc m = some (a, .fire i) → i = 0) ∧ (∀ c i, actAt pre cyc m = some (a, .verifyDone c i) → i = 0) := by
  obtain ⟨n, h1, h2, h3⟩ := shifted h m
  have hn : n0 ≤ n := by rcases h3 with rfl | h3 <;> omega
  have ha : actAt pre cyc m = actAt pre cyc n := h2.act 0
  have hb : (stAt pre cyc m).nodes a = setLog ((stAt pre cyc n).nodes a) ((stAt pre cyc m).nodes a).log := bare_eq (h2.same 0 a).symm
  rw [ha, hb]
  obtain ⟨k1, k2, k3⟩ := hs.first n hn h1
  exact ⟨hs.up n hn h1, fun r => hs.chokes n r hn h1, fun b e cut => hs.works n b e cut hn h1, k1, k2, k3⟩

theorem served {n0 : Nat} {a : Address} (h : Ok pre cyc) (hs : Serves pre cyc n0 a) (hn0 : n0 ≤ pre.length) : Served (run h) n0 a := by
  have hev := fun {m} hm => hs.every h (m := m) hm hn0
  have hview : ∀ m, n0 ≤ m → (∃ x, (run h).act m = some (a, x) ∧ Pace.View ((run h).node m a) ((run h).node (m + 1) a) x) ∨
      ((∀ x, (run h).act m ≠ some (a, x)) ∧ (run h).node (m + 1) a = (run h).node m a) := by
    intro m hm
    rcases Pace.node_step (run h) m a with ⟨x, k1, k2⟩ | k1
    · exact .inl ⟨x, k1, Pace.view (hev hm).1 (hev (m := m + 1) (by omega)).1 k2⟩
    · exact .inr k1
  have pop : ∀ {α} (q : Nat → List α) (y : NAct T → Prop),
      (∀ m x, n0 ≤ m → (run h).act m = some (a, x) → Pace.View ((run h).node m a) ((run h).node (m + 1) a) x →
        (y x ∧ ∃ z, q m = z :: q (m + 1)) ∨ (¬ y x ∧ ∃ l, q (m + 1) = q m ++ l)) →
      (∀ m, (run h).node (m + 1) a = (run h).node m a → q (m + 1) = q m) →
      (∀ m, ∃ j x, m ≤ j ∧ (run h).act j = some (a, x) ∧ y x) →
      ∀ n z, n0 ≤ n → z ∈ q n → ∃ j x, n ≤ j ∧ (run h).act j = some (a, x) ∧ y x ∧ ∃ l, q j = z :: l := by
    intro α q y hq hi hf n z hn hz
    obtain ⟨l1, l2, hl⟩ := List.append_of_mem hz
    obtain ⟨j, k1, ⟨x, k2, k3⟩, l, _, k4⟩ := fifo_served q (fun k => ∃ x, (run h).act k = some (a, x) ∧ y x) (fun _ => True) n0
      (by
        intro k hk
        rcases hview k hk with ⟨x, j1, j2⟩ | ⟨j1, j2⟩
        · rcases hq k x hk j1 j2 with ⟨j3, z, j4⟩ | ⟨j3, l, j4⟩
          · exact .inl ⟨⟨x, j1, j3⟩, z, [], by simp, by simp [j4], by simp [j4]⟩
          · refine .inr ⟨fun ⟨x', j5, j6⟩ => ?_, l, by simp, j4⟩
            rw [j1] at j5
            cases j5
            exact j3 j6
        · refine .inr ⟨fun ⟨x, j3, _⟩ => j1 x j3, [], by simp, by simp [hi k j2]⟩)
      (fun k _ _ => by obtain ⟨j, x, j1, j2, j3⟩ := hf k; exact ⟨j, j1, x, j2, j3⟩) z l2 l1 n hn hl
    exact ⟨j, x, k1, k2, k3, _, k4⟩
  have tail : ∀ {α} (l : List α) (z : α), l[0]? = some z → ∃ w, l = w :: l.eraseIdx 0 := by
    intro α l z hz
    cases l with
    | nil => cases hz
    | cons w l => exact ⟨w, rfl⟩
  refine ⟨fun n hn => (hev hn).1, ?_, ?_, ?_, ?_, ?_, ?_, ?_, fun n b e cut hn hx => (hev hn).2.2.1 b e cut hx,
    fun n r hn hr => (hev hn).2.1 r hr⟩
  · intro n hn _
    exact mem_again hs.smr n
  · intro n hn _
    exact mem_again hs.set n
  · intro n z hn hz
    obtain ⟨j, x, k1, k2, k3, l, k4⟩ := pop (fun k => ((run h).node k a).sys.armed) (fun x => x = .expire 0) (by
      intro m x hm hx hv
      cases hv with
      | arm b e i n1 ht hn =>
        have e1 : n1.sys.armed = ((run h).node m a).sys.armed := by
          cases b <;> simp only [NodeSys.take] at ht
          · cases ht; rfl
          all_goals (split at ht <;> cases ht; rfl)
        refine .inr ⟨by simp, [], ?_⟩
        rw [hn, List.append_nil, ← e1]
        rfl
      | smr t q hq hsys =>
        obtain ⟨_, _, _, heq⟩ := smr_act_eq hsys
        exact .inr ⟨by simp, [], by rw [heq]; simp⟩
      | time x' b hsys hxb =>
        rcases hxb with ⟨rfl, rfl⟩ | ⟨i, rfl, rfl⟩ | ⟨i, rfl, rfl⟩
        · obtain ⟨_, _, _, heq⟩ := set_act_eq hsys
          exact .inr ⟨by simp, _, by rw [heq]⟩
        · obtain ⟨w, hw, heq⟩ := expire_act_eq hsys
          have := (hev hm).2.2.2.1 i hx
          subst this
          refine .inl ⟨rfl, ?_⟩
          rw [heq]
          exact tail _ _ hw
        · obtain ⟨_, _, heq⟩ := fire_act_eq hsys
          exact .inr ⟨by simp, [], by rw [heq]; simp⟩
      | verifyDone c i w au hw hn => exact .inr ⟨by simp, [], by rw [hn]; simp⟩
      | checkDone i b h0 => exact .inr ⟨by simp, [], by rw [h0]; simp⟩)
      (fun m hm => by rw [hm])
      (fun m => by obtain ⟨j, j1, j2⟩ := mem_again (pre := pre) hs.expire m; exact ⟨j, _, j1, j2, rfl⟩) n z hn hz
    subst k3
    exact ⟨j, 0, k1, k2, by rw [k4]; rfl⟩
  · intro n z hn hz
    obtain ⟨j, x, k1, k2, k3, l, k4⟩ := pop (fun k => ((run h).node k a).sys.notify) (fun x => x = .fire 0) (by
      intro m x hm hx hv
      cases hv with
      | arm b e i n1 ht hn =>
        have e1 : n1.sys.notify = ((run h).node m a).sys.notify := by
          cases b <;> simp only [NodeSys.take] at ht
          · cases ht; rfl
          all_goals (split at ht <;> cases ht; rfl)
        refine .inr ⟨by simp, [], ?_⟩
        rw [hn, List.append_nil, ← e1]
        rfl
      | smr t q hq hsys =>
        obtain ⟨_, _, _, heq⟩ := smr_act_eq hsys
        exact .inr ⟨by simp, [], by rw [heq]; simp⟩
      | time x' b hsys hxb =>
        rcases hxb with ⟨rfl, rfl⟩ | ⟨i, rfl, rfl⟩ | ⟨i, rfl, rfl⟩
        · obtain ⟨_, _, _, heq⟩ := set_act_eq hsys
          exact .inr ⟨by simp, [], by rw [heq]; simp⟩
        · obtain ⟨w, hw, heq⟩ := expire_act_eq hsys
          exact .inr ⟨by simp, _, by rw [heq]⟩
        · obtain ⟨w, hw, heq⟩ := fire_act_eq hsys
          have := (hev hm).2.2.2.2.1 i hx
          subst this
          refine .inl ⟨rfl, ?_⟩
          rw [heq]
          exact tail _ _ hw
      | verifyDone c i w au hw hn => exact .inr ⟨by simp, [], by rw [hn]; simp⟩
      | checkDone i b h0 => exact .inr ⟨by simp, [], by rw [h0]; simp⟩)
      (fun m hm => by rw [hm])
      (fun m => by obtain ⟨j, j1, j2⟩ := mem_again (pre := pre) hs.fire m; exact ⟨j, _, j1, j2, rfl⟩) n z hn hz
    subst k3
    exact ⟨j, 0, k1, k2, by rw [k4]; rfl⟩
  · intro n hn _
    obtain ⟨e, he⟩ := hs.event
    obtain ⟨m, h1, h2⟩ := mem_again (pre := pre) he n
    exact ⟨m, e, h1, h2⟩
  · intro n hn _
    obtain ⟨e, he⟩ := hs.verified
    obtain ⟨m, h1, h2⟩ := mem_again (pre := pre) he n
    exact ⟨m, e, h1, h2⟩
  · intro n z hn hz
    obtain ⟨j, x, k1, k2, ⟨c, k3⟩, l, k4⟩ := pop (fun k => ((run h).node k a).verifying) (fun x => ∃ c, x = .verifyDone c 0) (by
      intro m x hm hx hv
      cases hv with
      | arm b e i n1 ht hn =>
        have e1 : n1.verifying = ((run h).node m a).verifying := by
          cases b <;> simp only [NodeSys.take] at ht
          · cases ht; rfl
          all_goals (split at ht <;> cases ht; rfl)
        refine .inr ⟨by simp, (runArm i e ⟨((run h).node m a).st, []⟩).2.log.filterMap (fun
          | .spawnVerify m a => some (m, a)
          | _ => none), ?_⟩
        rw [hn, ← e1]
        rfl
      | smr t q hq hsys h1 h2 h3 h4 h5 h6 => exact .inr ⟨by simp, [], by rw [h6]; simp⟩
      | time x' b hsys hxb h1 h2 h3 h4 h5 h6 =>
        refine .inr ⟨?_, [], by rw [h6]; simp⟩
        rcases hxb with ⟨rfl, rfl⟩ | ⟨i, rfl, rfl⟩ | ⟨i, rfl, rfl⟩ <;> simp
      | verifyDone c i w au hw hn =>
        have := (hev hm).2.2.2.2.2 c i hx
        subst this
        refine .inl ⟨⟨c, rfl⟩, ?_⟩
        rw [hn]
        exact tail _ _ hw
      | checkDone i b h0 h1 h2 h5 h6 => exact .inr ⟨by simp, [], by rw [h6]; simp⟩)
      (fun m hm => by rw [hm])
      (fun m => by
        obtain ⟨c, hc⟩ := hs.verify
        obtain ⟨j, j1, j2⟩ := mem_again (pre := pre) hc m
        exact ⟨j, _, j1, j2, c, rfl⟩) n z hn hz
    subst k3
    exact ⟨j, c, 0, k1, k2, by rw [k4]; rfl⟩

/-! ### Arrivals -/

/-- What live nodes send from moment `n0` on, is received later in the finite schedule or in the cycle. -/
structure Delivers (pre cyc : List (Address × NAct T)) (n0 : Nat) (live : Address → Bool) : Prop where
  sent : ∀ n a b m, n0 ≤ n → n < pre.length + cyc.length → live a = true → live b = true → a ≠ b →
    SentTo (stAt pre cyc n) (stAt pre cyc (n + 1)) a b m → ∃ e, (b, .arm (.raw m) e none) ∈ (pre ++ cyc).drop (n + 1) ++ cyc
  pass : ∀ n b c i m au, n0 ≤ n → n < pre.length + cyc.length → live b = true → actAt pre cyc n = some (b, .verifyDone c i) →
    ((stAt pre cyc n).nodes b).verifying[i]? = some (m, au) → verifyTask c m au = true

theorem later {y : Address × NAct T} {n : Nat} (hn : n < pre.length + cyc.length) (h : y ∈ (pre ++ cyc).drop (n + 1) ++ cyc) :
    ∃ m, n < m ∧ actAt pre cyc m = some y := by
  rcases List.mem_append.1 h with h | h
  · obtain ⟨i, hi, rfl⟩ := List.mem_iff_getElem.1 h
    rw [List.length_drop, List.length_append] at hi
    refine ⟨n + 1 + i, by omega, ?_⟩
    rw [actAt_lt (by omega), List.getElem_drop]
    exact List.getElem?_eq_getElem _
  · obtain ⟨m, h1, h2⟩ := mem_again (pre := pre) h (n + 1)
    exact ⟨m, by omega, h2⟩

/-- Every message between live nodes arrives. -/
theorem all_arrive {n0 : Nat} {live : Address → Bool} (h : Ok pre cyc) (hd : Delivers pre cyc n0 live) (hn0 : n0 ≤ pre.length) {m : Nat}
    {a b : Address} {x : OverlordMsg T} (hm : n0 ≤ m) (ha : live a = true) (hb : live b = true) (hab : a ≠ b)
    (hs : SentTo ((run h).st m) ((run h).st (m + 1)) a b x) : ∃ j e, m < j ∧ (run h).act j = some (b, .arm (.raw x) e none) := by
  obtain ⟨n, h1, h2, h3⟩ := shifted h m
  have hn : n0 ≤ n := by rcases h3 with rfl | h3 <;> omega
  have hs' : SentTo (stAt pre cyc n) (stAt pre cyc (n + 1)) a b x := by
    have := h2.done 0 a
    unfold SentTo at hs ⊢
    rw [Nat.add_zero, Nat.add_zero] at this
    rw [this]
    exact hs
  obtain ⟨e, he⟩ := hd.sent n a b x hn h1 ha hb hab hs'
  obtain ⟨j, h4, h5⟩ := later h1 he
  refine ⟨m + (j - n), e, by omega, ?_⟩
  have := h2.act (j - n)
  rw [show n + (j - n) = j by omega, h5] at this
  exact this

theorem arrive {n0 : Nat} {live : Address → Bool} (h : Ok pre cyc) (hd : Delivers pre cyc n0 live) (hn0 : n0 ≤ pre.length) :
    ChokesArrive (run h) n0 live := by
  constructor
  · intro n a b sc hn ha hb hab hs
    exact all_arrive h hd hn0 hn ha hb hab (.inl hs)
  · intro n m a b sc au c i hn hm ha hb hs hx hv
    obtain ⟨j, h1, h2, h3⟩ := shifted h m
    have hj : n0 ≤ j := by rcases h3 with rfl | h3 <;> omega
    refine hd.pass j b c i _ au hj h1 hb ((h2.act 0).symm.trans hx) ?_
    have : (stAt pre cyc j).nodes b = setLog ((stAt pre cyc m).nodes b) ((stAt pre cyc j).nodes b).log := bare_eq (h2.same 0 b)
    rw [this]
    exact hv

/-- What holds of a node in the cycle, apart from its log, holds for ever. -/
theorem forever (h : Ok pre cyc) {a : Address} {P : NodeSys T → Prop} (hP : ∀ n l, P n → P (setLog n l))
    (hc : ∀ n, pre.length ≤ n → n < pre.length + cyc.length → P ((stAt pre cyc n).nodes a)) :
    ∀ m, pre.length ≤ m → P ((run h).node m a) := by
  intro m hm
  obtain ⟨n, h1, h2, h3⟩ := shifted h m
  have hn : pre.length ≤ n := by rcases h3 with rfl | h3 <;> omega
  have : (run h).node m a = setLog ((stAt pre cyc n).nodes a) ((run h).node m a).log := bare_eq (h2.same 0 a).symm
  rw [this]
  exact hP _ _ (hc n hn h1)

/-- What is not done in the cycle is never done again. -/
theorem never (h : Ok pre cyc) {a : Address} {P : Effect T → Prop}
    (hc : ∀ n, pre.length ≤ n → n < pre.length + cyc.length → ∀ y ∈ doneSince (stAt pre cyc n) (stAt pre cyc (n + 1)) a, ¬ P y) :
    ∀ m, ∀ y ∈ doneSince ((run h).st pre.length) ((run h).st (pre.length + m)) a, ¬ P y := by
  have hone : ∀ m, pre.length ≤ m → ∀ y ∈ doneSince ((run h).st m) ((run h).st (m + 1)) a, ¬ P y := by
    intro m hm y hy
    obtain ⟨n, h1, h2, h3⟩ := shifted h m
    have hn : pre.length ≤ n := by rcases h3 with rfl | h3 <;> omega
    have := h2.done 0 a
    rw [Nat.add_zero, Nat.add_zero] at this
    exact hc n hn h1 y (by rw [this]; exact hy)
  have hgrow : ∀ m, ∃ l, ((run h).node (m + 1) a).log = ((run h).node m a).log ++ l := by
    intro m
    rcases Pace.node_step (run h) m a with ⟨x, _, k2⟩ | ⟨_, k2⟩
    · exact act_grows k2
    · exact ⟨[], by rw [k2]; simp⟩
  have hpre : ∀ m, ∃ l, ((run h).node (pre.length + m) a).log = ((run h).node pre.length a).log ++ l := by
    intro m
    induction m with
    | zero => exact ⟨[], by simp⟩
    | succ m ih =>
      obtain ⟨l, hl⟩ := ih
      obtain ⟨l', hl'⟩ := hgrow (pre.length + m)
      exact ⟨l ++ l', by rw [← Nat.add_assoc, hl', hl, List.append_assoc]⟩
  intro m
  induction m with
  | zero => intro y hy; simp [doneSince] at hy
  | succ m ih =>
    intro y hy
    obtain ⟨l, hl⟩ := hpre m
    obtain ⟨l', hl'⟩ := hgrow (pre.length + m)
    have e1 : doneSince ((run h).st pre.length) ((run h).st (pre.length + m)) a = l := by
      unfold doneSince
      show List.drop _ ((run h).node (pre.length + m) a).log = _
      rw [hl]; exact List.drop_left
    have e2 : doneSince ((run h).st (pre.length + m)) ((run h).st (pre.length + m + 1)) a = l' := by
      unfold doneSince
      show List.drop _ ((run h).node (pre.length + m + 1) a).log = _
      rw [hl']; exact List.drop_left
    have e3 : doneSince ((run h).st pre.length) ((run h).st (pre.length + (m + 1))) a = l ++ l' := by
      unfold doneSince
      show List.drop _ ((run h).node (pre.length + m + 1) a).log = _
      rw [hl', hl, List.append_assoc]; exact List.drop_left
    rw [e3] at hy
    rcases List.mem_append.1 hy with hy | hy
    · exact ih y (by rw [e1]; exact hy)
    · exact hone (pre.length + m) (by omega) y (by rw [e2]; exact hy)

end

end Overlord.Lasso
