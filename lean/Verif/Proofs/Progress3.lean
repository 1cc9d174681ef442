import Verif.Proofs.Progress2

/-! A node that does not leave its round asks for a new one again and again (used for C54). -/

set_option linter.unusedSimpArgs false
set_option linter.unusedVariables false
set_option linter.unusedSectionVars false
set_option linter.unusedTactic false
set_option linter.unreachableTactic false

namespace Overlord.Pace
open Spec M Rdy

variable {T : Type} [ContentCodec T] [DecidableEq T]

/-- The step of the voting state machine and the timer in a step of the node. -/
def labOf (a : Address) : Option (Address × NAct T) → Option TAct
  | some (b, .smr) => if b = a then some .smr else none
  | some (b, .set) => if b = a then some .set else none
  | some (b, .expire i) => if b = a then some (.expire i) else none
  | some (b, .fire i) => if b = a then some (.fire i) else none
  | _ => none

def notNRI : SMREvent → Prop
  | .newRoundInfo .. => False
  | _ => True

theorem ord_end {H : Nat} {mr : Nat} : ∀ (evs : List SMREvent) (e : Prop) (r : Nat), (∀ ev ∈ evs, notNRI ev) → Ord H e r evs mr → r = mr := by
  intro evs
  induction evs with
  | nil => intro e r _ h; exact h.2
  | cons ev evs ih =>
    intro e r hn h
    have hn' : ∀ ev ∈ evs, notNRI ev := fun x hx => hn x (List.mem_cons_of_mem _ hx)
    have h0 := hn ev (by simp)
    cases ev with
    | newRoundInfo => exact h0.elim
    | prevoteVote => exact ih _ _ hn' h.2
    | precommitVote => exact ih _ _ hn' h.2
    | brake => exact ih _ _ hn' h.2
    | commit => exact ih _ _ hn' h
    | stop => exact ih _ _ hn' h

section
variable {f : Hash → Nat × T} {lists : Nat → List Node} {correct : Address → Bool} {mode : LeaderMode} {leader : Nat → Nat → Address}

namespace Halted
variable {σ : NetRun T} {n0 : Nat} {a : Address} {k r : Nat}

/-- The voting state machine and the timer of the node, from moment `n0` on. -/
def grun (h : Halted f lists correct mode leader σ n0 a k r) : GRun where
  st := fun d => (σ.node (n0 + d) a).sys
  lab := fun d => labOf a (σ.act (n0 + d))
  inv := fun d => (h.facts (m := n0 + d) (by omega)).nt.tinv
  next := by
    intro d x hx
    rw [← Nat.add_assoc]
    rcases h.view (m := n0 + d) (by omega) with ⟨y, h1, h2⟩ | ⟨h1, h2⟩
    · rw [h1] at hx
      cases h2 with
      | arm => cases hx
      | smr t q hq hs =>
        simp only [labOf, if_true, Option.some.injEq] at hx
        subst hx; exact hs
      | time y b hs hy =>
        rcases hy with ⟨rfl, rfl⟩ | ⟨i, rfl, rfl⟩ | ⟨i, rfl, rfl⟩ <;>
        · simp only [labOf, if_true, Option.some.injEq] at hx
          subst hx; exact hs
      | verifyDone => cases hx
      | checkDone => cases hx
    · exfalso
      unfold labOf at hx
      split at hx <;> first | cases hx | skip
      all_goals
        rename_i hb
        split at hx <;> first | cases hx | skip
        rename_i hba
        subst hba
        exact h1 _ hb
  other := by
    intro d hx
    rw [← Nat.add_assoc]
    rcases h.view (m := n0 + d) (by omega) with ⟨y, h1, h2⟩ | ⟨h1, h2⟩
    · rw [h1] at hx
      cases h2 with
      | arm b e i n1 ht hn =>
        refine ⟨trigsOf (runArm i e ⟨(σ.node (n0 + d) a).st, []⟩).2.log, ?_⟩
        rw [hn]; simp [NodeSys.took, NodeSys.absorb, cutTo, (take_spec ht).2.2.2.1]
      | smr t q hq hs => simp [labOf] at hx
      | time y b hs hy =>
        rcases hy with ⟨rfl, rfl⟩ | ⟨i, rfl, rfl⟩ | ⟨i, rfl, rfl⟩ <;> simp [labOf] at hx
      | verifyDone c i m au hm hn => exact ⟨[], by rw [hn]; simp⟩
      | checkDone i b g0 => exact ⟨[], by rw [g0]; simp⟩
    · exact ⟨[], by rw [h2]; simp⟩

theorem gfair (h : Halted f lists correct mode leader σ n0 a k r) : GFair h.grun := by
  refine ⟨?_, ?_, ?_, ?_⟩
  · intro d hne
    obtain ⟨m, h1, h2⟩ := h.served.smr (n0 + d) (by omega) hne
    refine ⟨m - n0, by omega, ?_⟩
    show labOf a (σ.act (n0 + (m - n0))) = _
    rw [show n0 + (m - n0) = m by omega, h2]; simp [labOf]
  · intro d hne
    obtain ⟨m, h1, h2⟩ := h.served.set (n0 + d) (by omega) hne
    refine ⟨m - n0, by omega, ?_⟩
    show labOf a (σ.act (n0 + (m - n0))) = _
    rw [show n0 + (m - n0) = m by omega, h2]; simp [labOf]
  · intro d x hx
    obtain ⟨m, i, h1, h2, h3⟩ := h.served.expire (n0 + d) x (by omega) hx
    refine ⟨m - n0, i, by omega, ?_, ?_⟩
    · show labOf a (σ.act (n0 + (m - n0))) = _
      rw [show n0 + (m - n0) = m by omega, h2]; simp [labOf]
    · show (σ.node (n0 + (m - n0)) a).sys.armed[i]? = _
      rw [show n0 + (m - n0) = m by omega]; exact h3
  · intro d x hx
    obtain ⟨m, i, h1, h2, h3⟩ := h.served.fire (n0 + d) x (by omega) hx
    refine ⟨m - n0, i, by omega, ?_, ?_⟩
    · show labOf a (σ.act (n0 + (m - n0))) = _
      rw [show n0 + (m - n0) = m by omega, h2]; simp [labOf]
    · show (σ.node (n0 + (m - n0)) a).sys.notify[i]? = _
      rw [show n0 + (m - n0) = m by omega]; exact h3

/-- The machine handles a trigger. -/
inductive SmrIn (k r : Nat) (s : Smr) (o : SmrOut) : Prop
  | brake (lr : Option Nat) (ho : o.outs = [.both (.brake k r lr)])
  | act (hs : s.step.toNat < o.next.step.toNat) (hq : ∀ z ∈ o.outs.filterMap Out.toState, notNRI z)
  | quiet (hs : o.next = s) (ho : o.outs = [])

theorem smrIn (h : Halted f lists correct mode leader σ n0 a k r) {m : Nat} (hm : n0 ≤ m) {t : SMRTrigger} {q : List SMRTrigger}
    (h1 : σ.act m = some (a, .smr)) (hq : (σ.node m a).sys.trigQ = t :: q) :
    SmrIn k r (σ.node m a).sys.smr ((σ.node m a).sys.smr.onTrigger t) := by
  obtain ⟨i1, i2, i3⟩ := h.smr hm
  obtain ⟨j1, j2, j3⟩ := h.smr (m := m + 1) (by omega)
  have hsm : t.round < 2 ^ 64 - 1 := (h.ok m a _ h1 h.cor).1.rounds t q hq
  have hto : TrigOk t := (h.facts hm).nt.tinv.trigs t (by rw [show ((σ.st m).nodes a).sys.trigQ = t :: q from hq]; simp)
  have g3 : (σ.node (m + 1) a).sys.smr = ((σ.node m a).sys.smr.onTrigger t).next := by
    rcases h.view hm with ⟨y, g1, g2⟩ | ⟨g1, _⟩
    · rw [h1] at g1; cases g1
      cases g2 with
      | smr t' q' hq' hs k1 k2 k3 => rw [hq] at hq'; cases hq'; exact k3
      | time y b hs hy => rcases hy with ⟨hy, _⟩ | ⟨i, hy, _⟩ | ⟨i, hy, _⟩ <;> cases hy
    · exact absurd h1 (g1 _)
  rw [g3] at j1 j2 j3
  have inc : ∀ x, x < 2 ^ 64 - 1 → inc64 x = x + 1 := by intro x hx; unfold inc64 U64; omega
  have hc := smr_case (σ.node m a).sys.smr t
  generalize (σ.node m a).sys.smr.onTrigger t = o at *
  generalize hs : (σ.node m a).sys.smr = s at *
  cases hc with
  | quiet res => exact .quiet rfl rfl
  | newHeight st ht hs hh => simp only at j1; omega
  | propTimer ht hs hh hr hst => exact .act (by simp [hst, Step.toNat]) (by simp [Out.toState, notNRI])
  | propState s1 ht hs hh hr hst hne hacc => exact .act (by simp [hst, Step.toNat]) (by simp [Out.toState, notNRI])
  | prevoteTimer b ht hs hh hr hst hb => exact .act (show s.step.toNat < 2 by omega) (by simp [Out.toState, notNRI])
  | prevoteSame ht hs hh hr hst => exact .act (show s.step.toNat < 2 by omega) (by simp [Out.toState, notNRI])
  | prevoteSkip ht hs hh hr => simp only [inc _ hsm] at j2; omega
  | precommitTimer ht hs hh hr hst => exact .brake s.lockRound (by rw [i1, i2])
  | precommitNil ht hs hh hr hst hn => simp only [inc _ hsm] at j2; omega
  | commit ht hs' hh hst hn => exact absurd rfl j3
  | brake ht hs hh hr => exact .brake s.lockRound (by rw [i1, i2])
  | cont ht hs hh hr => simp only [inc (t.round - 1) (by omega)] at j2; omega
  | wal w ht => exact absurd ht hto.notWal
  | stop ht =>
    exfalso
    rcases hto with ⟨_, hx⟩ | ⟨_, hx⟩ <;> rw [ht] at hx <;> simp at hx

/-- The machine orders a choke at moment `m`. -/
def Ordered (σ : NetRun T) (a : Address) (k r m : Nat) : Prop := ∃ l1 lr, (σ.node (m + 1) a).stQ = l1 ++ [.brake k r lr]

theorem smr_next (h : Halted f lists correct mode leader σ n0 a k r) {m : Nat} (hm : n0 ≤ m) :
    Ordered σ a k r m ∨ ((σ.node m a).sys.smr.step.toNat ≤ (σ.node (m + 1) a).sys.smr.step.toNat ∧
      (GActs h.grun (m - n0) → (σ.node m a).sys.smr.step.toNat < (σ.node (m + 1) a).sys.smr.step.toNat)) := by
  have nol : (labOf a (σ.act m) ≠ some .smr) → ¬ GActs h.grun (m - n0) := by
    rintro hl ⟨h1, _⟩
    have : labOf a (σ.act (n0 + (m - n0))) = some .smr := h1
    rw [show n0 + (m - n0) = m by omega] at this
    exact hl this
  rcases h.view hm with ⟨x, h1, h2⟩ | ⟨h1, h2⟩
  · cases h2 with
    | arm b e i n1 ht hn =>
      have : (σ.node (m + 1) a).sys.smr = (σ.node m a).sys.smr := by
        rw [hn]; show n1.sys.smr = _; rw [(take_spec ht).2.2.2.1]
      exact .inr ⟨(by rw [this]), fun hg => absurd hg (nol (by rw [h1]; simp [labOf]))⟩
    | time y b hs hy g1 g2 g3 =>
      refine .inr ⟨(by rw [g3]), fun hg => absurd hg (nol ?_)⟩
      rw [h1]
      rcases hy with ⟨rfl, _⟩ | ⟨i, rfl, _⟩ | ⟨i, rfl, _⟩ <;> simp [labOf]
    | verifyDone c i m au hm hn =>
      exact .inr ⟨(by rw [hn]), fun hg => absurd hg (nol (by rw [h1]; simp [labOf]))⟩
    | checkDone i b g0 =>
      exact .inr ⟨(by rw [g0]), fun hg => absurd hg (nol (by rw [h1]; simp [labOf]))⟩
    | smr t q hq hs g1 g2 g3 =>
      cases h.smrIn hm h1 hq with
      | brake lr ho =>
        left
        exact ⟨(σ.node m a).stQ, lr, by rw [g2, ho]; rfl⟩
      | act ha hz => right; rw [g3]; exact ⟨Nat.le_of_lt ha, fun _ => ha⟩
      | quiet hn ho =>
        right
        rw [g3, hn]
        refine ⟨Nat.le_refl _, ?_⟩
        rintro ⟨_, t', q', k1, k2⟩
        have k1 : (σ.node (n0 + (m - n0)) a).sys.trigQ = t' :: q' := k1
        have k2 : ((σ.node (n0 + (m - n0)) a).sys.smr.onTrigger t').outs ≠ [] := k2
        rw [show n0 + (m - n0) = m by omega] at k1 k2
        rw [hq] at k1; cases k1
        exact absurd ho k2
  · exact .inr ⟨(by rw [h2]), fun hg => absurd hg (nol (by
      intro hl
      unfold labOf at hl
      split at hl <;> first | cases hl | skip
      all_goals
        rename_i hb
        split at hl
        · rename_i hba
          subst hba
          exact h1 _ hb
        · cases hl))⟩

/-- The machine orders chokes again and again. -/
theorem orders (h : Halted f lists correct mode leader σ n0 a k r) {n : Nat} (hn : n0 ≤ n) : ∃ m, n ≤ m ∧ Ordered σ a k r m := by
  have key : ∀ j n, n0 ≤ n → 4 ≤ (σ.node n a).sys.smr.step.toNat + j → ∃ m, n ≤ m ∧ Ordered σ a k r m := by
    intro j
    induction j with
    | zero =>
      intro n hn hs
      have := (h.smr hn).2.2
      cases hst : (σ.node n a).sys.smr.step <;> rw [hst] at hs this <;> simp [Step.toNat] at hs this
    | succ j ih =>
      intro n hn hs
      obtain ⟨d, g1, g2⟩ := gnever_stuck h.grun h.gfair (n - n0) (by
        show (σ.node (n0 + (n - n0)) a).sys.smr.step ≠ .commit
        rw [show n0 + (n - n0) = n by omega]; exact (h.smr hn).2.2)
      refine Classical.byContradiction fun hno => ?_
      have hno : ∀ m, n ≤ m → ¬ Ordered σ a k r m := fun m h1 h2 => hno ⟨m, h1, h2⟩
      have mono : ∀ e, (σ.node n a).sys.smr.step.toNat ≤ (σ.node (n + e) a).sys.smr.step.toNat := by
        intro e
        induction e with
        | zero => exact Nat.le_refl _
        | succ e ihe =>
          rcases h.smr_next (m := n + e) (by omega) with k1 | ⟨k1, _⟩
          · exact absurd k1 (hno _ (by omega))
          · exact Nat.le_trans ihe k1
      have m1 := mono (d - (n - n0))
      rw [show n + (d - (n - n0)) = n0 + d by omega] at m1
      rcases h.smr_next (m := n0 + d) (by omega) with k1 | ⟨_, k2⟩
      · exact absurd k1 (hno _ (by omega))
      · rw [show n0 + d - n0 = d by omega] at k2
        have := k2 g2
        obtain ⟨m, h1, h2⟩ := ih (n0 + d + 1) (by omega) (by omega)
        exact hno m (by omega) h2
  exact key 4 n hn (by omega)

theorem adds (h : Halted f lists correct mode leader σ n0 a k r) {m : Nat} (hm : n0 ≤ m) {t : SMRTrigger} {q : List SMRTrigger}
    (hq : (σ.node m a).sys.trigQ = t :: q) (h1 : σ.act m = some (a, .smr)) :
    ∀ z ∈ ((σ.node m a).sys.smr.onTrigger t).outs.filterMap Out.toState, notNRI z := by
  cases h.smrIn hm h1 hq with
  | brake lr ho => rw [ho]; simp [Out.toState, notNRI]
  | act _ hz => exact hz
  | quiet _ ho => rw [ho]; simp

/-- From some moment on no order to enter a round is left. -/
def Clear (σ : NetRun T) (a : Address) (m : Nat) : Prop := ∀ ev ∈ (σ.node m a).stQ, notNRI ev

theorem clear_next (h : Halted f lists correct mode leader σ n0 a k r) {m : Nat} (hm : n0 ≤ m) (hc : Clear σ a m) : Clear σ a (m + 1) := by
  intro ev hev
  rcases h.view hm with ⟨x, h1, h2⟩ | ⟨h1, h2⟩
  · cases h2 with
    | arm b e i n1 ht hn =>
      have : ev ∈ n1.stQ := by rw [hn] at hev; exact hev
      rcases (take_spec ht).2.2.2.2 with ⟨t5, _⟩ | ⟨_, ev', _, t5⟩
      · exact hc ev (by rw [← t5]; exact this)
      · exact hc ev (by rw [t5]; exact List.mem_cons_of_mem _ this)
    | smr t q hq hs g1 g2 =>
      rw [g2] at hev
      rcases List.mem_append.1 hev with hev | hev
      · exact hc ev hev
      · exact h.adds hm hq h1 ev hev
    | time y b hs hy g1 g2 => exact hc ev (by rw [← g2]; exact hev)
    | verifyDone c i m au hm hn => rw [hn] at hev; exact hc ev hev
    | checkDone i b g0 g1 g2 => exact hc ev (by rw [← g2]; exact hev)
  · rw [h2] at hev; exact hc ev hev

theorem clear_on (h : Halted f lists correct mode leader σ n0 a k r) {m : Nat} (hm : n0 ≤ m) (hc : Clear σ a m) :
    ∀ m', m ≤ m' → Clear σ a m' := by
  have : ∀ d, Clear σ a (m + d) := by
    intro d
    induction d with
    | zero => exact hc
    | succ d ih => exact h.clear_next (m := m + d) (by omega) ih
  intro m' hm'
  have := this (m' - m)
  rwa [show m + (m' - m) = m' by omega] at this

theorem clear_round (h : Halted f lists correct mode leader σ n0 a k r) {m : Nat} (hm : n0 ≤ m) (hc : Clear σ a m) : (σ.node m a).st.round = r := by
  obtain ⟨h1, h2⟩ := h.pos hm
  obtain ⟨i1, i2, _⟩ := h.smr hm
  have := (h.facts hm).ord.ord h2 (by
    show (σ.node m a).sys.smr.height = (σ.node m a).st.height
    rw [h1, i1])
  exact (ord_end _ _ _ hc this).trans i2

/-- The State takes up an order to ask for a new round, in the round, again and again. -/
theorem brakes (h : Halted f lists correct mode leader σ n0 a k r) {n : Nat} (hn : n0 ≤ n) :
    ∃ m lr q e, n ≤ m ∧ (σ.node m a).stQ = .brake k r lr :: q ∧ Clear σ a m ∧ σ.act m = some (a, .arm .event e none) ∧
      (σ.node (m + 1) a).st = (runArm (.event (.brake k r lr)) e ⟨(σ.node m a).st, []⟩).2.st ∧
      (σ.node (m + 1) a).log = (σ.node m a).log ++ (runArm (.event (.brake k r lr)) e ⟨(σ.node m a).st, []⟩).2.log ∧
      (σ.node (m + 1) a).sys = { (σ.node m a).sys with
        trigQ := (σ.node m a).sys.trigQ ++ trigsOf (runArm (.event (.brake k r lr)) e ⟨(σ.node m a).st, []⟩).2.log } := by
  obtain ⟨m, h1, l1, lr, h2⟩ := h.orders hn
  obtain ⟨m', g1, x, g2, g3, g4, e, g5, g6, g7, g8⟩ := h.taken notNRI (n := n0) (Nat.le_refl _)
    (fun m t q hm hq ha => h.adds hm hq ha) (m := m + 1) (by omega) h2
  refine ⟨m', lr, _, e, by omega, g3, ?_, g5, g6, g7, g8⟩
  intro ev hev
  rw [g3] at hev
  rcases List.mem_cons.1 hev with rfl | hev
  · trivial
  · exact g2 ev (by simpa using hev)

/-- A trigger is handled. -/
theorem trigger (h : Halted f lists correct mode leader σ n0 a k r) {m : Nat} (hm : n0 ≤ m) {t : SMRTrigger} (ht : t ∈ (σ.node m a).sys.trigQ) :
    ∃ m', m ≤ m' ∧ (σ.node m' a).sys.smr.height = k ∧ (σ.node m' a).sys.smr.round = r ∧ (σ.node m' a).sys.smr.step ≠ .commit ∧
      SmrIn k r (σ.node m' a).sys.smr ((σ.node m' a).sys.smr.onTrigger t) := by
  obtain ⟨l1, l2, hl⟩ := List.append_of_mem ht
  obtain ⟨m', g1, g2, x, _, g4⟩ := fifo_served (fun m => (σ.node m a).sys.trigQ) (fun m => σ.act m = some (a, .smr)) (fun _ => True) n0
    (by
      intro j hj
      rcases h.view hj with ⟨y, k1, k2⟩ | ⟨k1, k2⟩
      · cases k2 with
        | smr t q hq hs j1 j2 j3 j4 => exact .inl ⟨k1, t, [], by simp, by simp [hq, j4], by simp [hq]⟩
        | arm b e i n1 ht hn =>
          exact .inr ⟨by simp [k1], trigsOf (runArm i e ⟨(σ.node j a).st, []⟩).2.log, by simp, by
            rw [hn]; simp [NodeSys.took, NodeSys.absorb, cutTo, (take_spec ht).2.2.2.1]⟩
        | time y b hs hy j1 j2 j3 j4 =>
          obtain ⟨ts, hts⟩ := j4
          refine .inr ⟨?_, ts, by simp, hts⟩
          rw [k1]
          rcases hy with ⟨rfl, _⟩ | ⟨i, rfl, _⟩ | ⟨i, rfl, _⟩ <;> simp
        | verifyDone c i m au hm hn => exact .inr ⟨by simp [k1], [], by simp, by rw [hn]; simp⟩
        | checkDone i b j0 => exact .inr ⟨by simp [k1], [], by simp, by rw [j0]; simp⟩
      · exact .inr ⟨k1 _, [], by simp, by rw [k2]; simp⟩)
    (fun j hj hne => h.served.smr j hj hne) t l2 l1 m hm hl
  obtain ⟨i1, i2, i3⟩ := h.smr (m := m') (by omega)
  exact ⟨m', g1, i1, i2, i3, h.smrIn (m := m') (by omega) g2 g4⟩

/-- A trigger that would lead to a later round is never sent. -/
theorem noCont (h : Halted f lists correct mode leader σ n0 a k r) {m : Nat} (hm : n0 ≤ m) {t : SMRTrigger} (ht : t ∈ (σ.node m a).sys.trigQ)
    (h1 : t.triggerType = .continueRound) (h2 : t.source = .state) (h3 : t.height = k) (h4 : r < t.round) : False := by
  obtain ⟨m', _, i1, i2, _, hin⟩ := h.trigger hm ht
  cases hin with
  | brake lr ho =>
    simp [Smr.onTrigger, h1, h2, Smr.handleContinueRound, h3, i1, i2, show ¬ t.round ≤ r by omega] at ho
  | act ha _ =>
    simp [Smr.onTrigger, h1, h2, Smr.handleContinueRound, h3, i1, i2, show ¬ t.round ≤ r by omega, Smr.gotoNextRound, Step.toNat] at ha
  | quiet hn ho =>
    simp [Smr.onTrigger, h1, h2, Smr.handleContinueRound, h3, i1, i2, show ¬ t.round ≤ r by omega] at ho

/-- A precommit certificate for no block, of the round or a later one, is never passed on. -/
theorem noNil (h : Halted f lists correct mode leader σ n0 a k r) {m : Nat} (hm : n0 ≤ m) {t : SMRTrigger} (ht : t ∈ (σ.node m a).sys.trigQ)
    (h1 : t.triggerType = .precommitQC) (h2 : t.source = .state) (h3 : t.height = k) (h4 : r ≤ t.round) (h5 : t.hash = []) : False := by
  obtain ⟨m', _, i1, i2, i3, hin⟩ := h.trigger hm ht
  cases hin with
  | brake lr ho =>
    simp [Smr.onTrigger, h1, h2, Smr.handlePrecommit, h3, h5, i1, i2, i3, show ¬ t.round < r by omega] at ho
  | act ha _ =>
    simp [Smr.onTrigger, h1, h2, Smr.handlePrecommit, h3, h5, i1, i2, i3, show ¬ t.round < r by omega, Smr.gotoNextRound, Step.toNat] at ha
  | quiet hn ho =>
    simp [Smr.onTrigger, h1, h2, Smr.handlePrecommit, h3, h5, i1, i2, i3, show ¬ t.round < r by omega] at ho

end Halted

end

end Overlord.Pace
