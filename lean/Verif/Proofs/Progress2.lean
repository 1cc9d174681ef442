import Verif.Proofs.Progress

/-! A node that does not leave its round stays in it with its voting state machine (used for C54). -/

set_option linter.unusedSimpArgs false
set_option linter.unusedVariables false
set_option linter.unusedSectionVars false

namespace Overlord.Pace
open Spec M Rdy

variable {T : Type} [ContentCodec T] [DecidableEq T]

/-- The height never falls; at a height the power stays. -/
theorem arm_pos {e : Env T} {s : State T} {i : Input T} (hi : i ≠ .start) :
    s.height < (runArm i e ⟨s, []⟩).2.st.height ∨
    ((runArm i e ⟨s, []⟩).2.st.height = s.height ∧ (runArm i e ⟨s, []⟩).2.st.consensusPower = s.consensusPower) := by
  have moves : ∀ (s1 : State T) st (w : World T), s1.height = s.height → s1.consensusPower = s.consensusPower → Moves e s1 st w →
      s.height < w.st.height ∨ (w.st.height = s.height ∧ w.st.consensusPower = s.consensusPower) := by
    intro s1 st w e1 e3 o
    cases o with
    | stay hh => exact .inr ⟨e1, e3⟩
    | away hh => left; show s.height < st.height; omega
    | lost hh => left; show s.height < st.height; omega
    | adopt hh => left; show s.height < st.height; omega
  cases arm_out e s i hi with
  | quiet ho hs hr => exact .inr ⟨hs.height, hs.power⟩
  | status st hst o => exact moves s st _ rfl rfl o
  | event ev hev hp o =>
    subst hev
    generalize (runArm (.event ev) e ⟨s, []⟩).2 = w at *
    cases o with
    | newRound h0 r lr lp f ni nc o => exact .inr ⟨o.same.height, o.same.power⟩
    | prevote h0 r hash lr o => exact .inr ⟨o.same.height, o.same.power⟩
    | precommit h0 r hash lr o => exact .inr ⟨o.same.height, o.same.power⟩
    | commit hash o =>
      cases o with
      | none => exact .inr ⟨rfl, rfl⟩
      | lost content qc => exact .inr ⟨rfl, rfl⟩
      | failed content qc => exact .inr ⟨rfl, rfl⟩
      | stuck content qc status x => exact .inr ⟨rfl, rfl⟩
      | done content qc status w2 hb hq hs hc hm =>
        exact moves { s with authority := Authority.update status.authorityList } status w2 rfl rfl hm
    | brake r lr o => exact .inr ⟨o.same.height, o.same.power⟩
    | stale h0 r lr hh hw => subst hw; exact .inr ⟨rfl, rfl⟩
    | stop hw => subst hw; exact .inr ⟨rfl, rfl⟩

section
variable {f : Hash → Nat × T} {lists : Nat → List Node} {correct : Address → Bool} {mode : LeaderMode} {leader : Nat → Nat → Address}

/-- A served node in round `r` of height `k` that does not leave it. -/
structure Halted (f : Hash → Nat × T) (lists : Nat → List Node) (correct : Address → Bool) (mode : LeaderMode) (leader : Nat → Nat → Address)
    (σ : NetRun T) (n0 : Nat) (a : Address) (k r : Nat) : Prop where
  enc : Encodes T
  glists : GoodLists lists
  few : FewFaulty lists correct
  leaders : LeadersExist lists mode leader
  ok : σ.Ok f lists correct mode
  cor : correct a = true
  served : Served σ n0 a
  inr : InRound k r (σ.node n0 a)
  noadv : ∀ m, n0 ≤ m → ¬ Advanced σ n0 m a k r

namespace Halted
variable {σ : NetRun T} {n0 : Nat} {a : Address} {k r : Nat}

theorem facts (h : Halted f lists correct mode leader σ n0 a k r) {m : Nat} (hm : n0 ≤ m) : Facts f lists correct leader (σ.st m) a :=
  Pace.facts h.enc h.glists h.few h.leaders h.ok h.cor m (h.served.up m hm)

/-- One moment. -/
theorem view (h : Halted f lists correct mode leader σ n0 a k r) {m : Nat} (hm : n0 ≤ m) :
    (∃ x, σ.act m = some (a, x) ∧ View (σ.node m a) (σ.node (m + 1) a) x) ∨
    ((∀ x, σ.act m ≠ some (a, x)) ∧ σ.node (m + 1) a = σ.node m a) := by
  rcases node_step σ m a with ⟨x, h1, h2⟩ | h1
  · exact .inl ⟨x, h1, Pace.view (h.served.up m hm) (h.served.up _ (by omega)) h2⟩
  · exact .inr h1

/-- The log grows. -/
theorem grows (h : Halted f lists correct mode leader σ n0 a k r) {m : Nat} (hm : n0 ≤ m) : ∃ l, (σ.node m a).log = (σ.node n0 a).log ++ l := by
  have key : ∀ d, ∃ l, (σ.node (n0 + d) a).log = (σ.node n0 a).log ++ l := by
    intro d
    induction d with
    | zero => exact ⟨[], by simp⟩
    | succ d ih =>
      obtain ⟨l, hl⟩ := ih
      rcases node_step σ (n0 + d) a with ⟨x, h1, h2⟩ | ⟨_, h2⟩
      · obtain ⟨l', hl'⟩ := act_grows h2
        exact ⟨l ++ l', by rw [← Nat.add_assoc, hl', hl, List.append_assoc]⟩
      · exact ⟨l, by rw [← Nat.add_assoc, h2, hl]⟩
  have := key (m - n0)
  rwa [show n0 + (m - n0) = m by omega] at this

/-- The State stays at the height, as a validator. -/
theorem pos (h : Halted f lists correct mode leader σ n0 a k r) {m : Nat} (hm : n0 ≤ m) :
    (σ.node m a).st.height = k ∧ (σ.node m a).st.consensusPower = true := by
  have key : ∀ d, (σ.node (n0 + d) a).st.height = k ∧ (σ.node (n0 + d) a).st.consensusPower = true := by
    intro d
    induction d with
    | zero => exact ⟨h.inr.height, h.inr.power⟩
    | succ d ih =>
      rw [← Nat.add_assoc]
      rcases h.view (m := n0 + d) (by omega) with ⟨x, h1, h2⟩ | ⟨_, h2⟩
      · cases h2 with
        | arm b e i n1 ht hn =>
          have hst : (σ.node (n0 + d + 1) a).st = (runArm i e ⟨(σ.node (n0 + d) a).st, []⟩).2.st := by rw [hn]; rfl
          rcases arm_pos (e := e) (s := (σ.node (n0 + d) a).st) (take_spec ht).1 with g | ⟨g1, g2⟩
          · refine absurd (.inl ?_) (h.noadv (n0 + d + 1) (by omega))
            rw [hst]; omega
          · rw [hst, g1, g2]; exact ih
        | smr t q hq hs g1 => rw [g1]; exact ih
        | time x a hs hx g1 => rw [g1]; exact ih
        | verifyDone c i m au hm hn => rw [hn]; exact ih
        | checkDone i b g0 g1 => rw [g1]; exact ih
      · rw [h2]; exact ih
  have := key (m - n0)
  rwa [show n0 + (m - n0) = m by omega] at this

/-- The channel of orders: the front is taken up, or orders of the machine are added. -/
theorem stq (h : Halted f lists correct mode leader σ n0 a k r) {m : Nat} (hm : n0 ≤ m) :
    ((∃ e, σ.act m = some (a, .arm .event e none)) ∧ ∃ ev, (σ.node m a).stQ = ev :: (σ.node (m + 1) a).stQ ∧
      ∃ e, σ.act m = some (a, .arm .event e none) ∧ (σ.node (m + 1) a).st = (runArm (.event ev) e ⟨(σ.node m a).st, []⟩).2.st ∧
        (σ.node (m + 1) a).log = (σ.node m a).log ++ (runArm (.event ev) e ⟨(σ.node m a).st, []⟩).2.log ∧
        (σ.node (m + 1) a).sys = { (σ.node m a).sys with trigQ := (σ.node m a).sys.trigQ ++ trigsOf (runArm (.event ev) e ⟨(σ.node m a).st, []⟩).2.log }) ∨
    ((¬ ∃ e, σ.act m = some (a, .arm .event e none)) ∧ ((σ.node (m + 1) a).stQ = (σ.node m a).stQ ∨
      ∃ t q, (σ.node m a).sys.trigQ = t :: q ∧ (σ.node (m + 1) a).stQ = (σ.node m a).stQ ++ ((σ.node m a).sys.smr.onTrigger t).outs.filterMap Out.toState)) := by
  rcases h.view hm with ⟨x, h1, h2⟩ | ⟨h1, h2⟩
  · cases h2 with
    | arm b e i n1 ht hn =>
      obtain ⟨t1, t2, t3, t4, t5⟩ := take_spec ht
      rcases t5 with ⟨t5, t6⟩ | ⟨rfl, ev, rfl, t5⟩
      · right
        refine ⟨?_, .inl (by rw [hn]; exact t5)⟩
        rintro ⟨e', he⟩
        rw [h1] at he
        cases he
        simp only [NodeSys.take] at ht
        split at ht
        · cases ht
        · cases ht; exact t6 _ rfl
      · left
        refine ⟨⟨e, h1⟩, ev, by rw [hn]; exact t5, e, h1, by rw [hn]; rfl, ?_, ?_⟩
        · rw [hn]; simp [NodeSys.took, NodeSys.absorb, cutTo, t2]
        · rw [hn]; simp [NodeSys.took, NodeSys.absorb, cutTo, t4]
    | smr t q hq hs g1 g2 =>
      exact .inr ⟨(by rintro ⟨e, he⟩; rw [h1] at he; cases he), .inr ⟨t, q, hq, g2⟩⟩
    | time x a' hs hx g1 g2 =>
      refine .inr ⟨?_, .inl g2⟩
      rintro ⟨e, he⟩; rw [h1] at he; cases he
      rcases hx with ⟨hx, _⟩ | ⟨_, hx, _⟩ | ⟨_, hx, _⟩ <;> cases hx
    | verifyDone c i m au hm hn => exact .inr ⟨(by rintro ⟨e, he⟩; rw [h1] at he; cases he), .inl (by rw [hn])⟩
    | checkDone i b h0 g1 g2 => exact .inr ⟨(by rintro ⟨e, he⟩; rw [h1] at he; cases he), .inl g2⟩
  · exact .inr ⟨(by rintro ⟨e, he⟩; exact h1 _ he), .inl (by rw [h2])⟩

/-- Every order in the channel is taken up; what comes behind it meanwhile has been added since. -/
theorem taken (h : Halted f lists correct mode leader σ n0 a k r) (P : SMREvent → Prop)
    {n : Nat} (hn : n0 ≤ n)
    (hP : ∀ m t q, n ≤ m → (σ.node m a).sys.trigQ = t :: q → σ.act m = some (a, .smr) →
      ∀ z ∈ ((σ.node m a).sys.smr.onTrigger t).outs.filterMap Out.toState, P z)
    {m : Nat} (hm : n ≤ m) {ev : SMREvent} {l1 l2 : List SMREvent} (hq : (σ.node m a).stQ = l1 ++ ev :: l2) :
    ∃ m', m ≤ m' ∧ ∃ x, (∀ z ∈ x, P z) ∧ (σ.node m' a).stQ = ev :: (l2 ++ x) ∧ (σ.node (m' + 1) a).stQ = l2 ++ x ∧
      ∃ e, σ.act m' = some (a, .arm .event e none) ∧ (σ.node (m' + 1) a).st = (runArm (.event ev) e ⟨(σ.node m' a).st, []⟩).2.st ∧
        (σ.node (m' + 1) a).log = (σ.node m' a).log ++ (runArm (.event ev) e ⟨(σ.node m' a).st, []⟩).2.log ∧
        (σ.node (m' + 1) a).sys =
          { (σ.node m' a).sys with trigQ := (σ.node m' a).sys.trigQ ++ trigsOf (runArm (.event ev) e ⟨(σ.node m' a).st, []⟩).2.log } := by
  obtain ⟨m', h1, h2, x, h3, h4⟩ := fifo_served (fun m => (σ.node m a).stQ) (fun m => ∃ e, σ.act m = some (a, .arm .event e none)) P n
    (by
      intro j hj
      rcases h.view (m := j) (by omega) with ⟨y, g1, g2⟩ | ⟨g1, g2⟩
      · rcases h.stq (m := j) (by omega) with ⟨g3, ev', g4, _⟩ | ⟨g3, g4⟩
        · exact .inl ⟨g3, ev', [], by simp, by simp [g4], by simp [g4]⟩
        · refine .inr ⟨g3, ?_⟩
          cases g2 with
          | smr t q hq hs k1 k2 => exact ⟨_, fun z hz => hP j t q hj hq g1 z hz, k2⟩
          | arm b e i n1 ht hn =>
            obtain ⟨_, _, _, _, t5⟩ := take_spec ht
            rcases t5 with ⟨t5, t6⟩ | ⟨rfl, _⟩
            · exact ⟨[], by simp, by rw [hn, List.append_nil]; exact t5⟩
            · exact absurd ⟨e, g1⟩ g3
          | time x a' hs hx k1 k2 => exact ⟨[], by simp, by simp [k2]⟩
          | verifyDone c i m au hm hn => exact ⟨[], by simp, by rw [hn]; simp⟩
          | checkDone i b k0 k1 k2 => exact ⟨[], by simp, by simp [k2]⟩
      · exact .inr ⟨(by rintro ⟨e, he⟩; exact g1 _ he), [], by simp, by rw [g2]; simp⟩)
    (by
      intro j hj hne
      obtain ⟨m', e, g1, g2⟩ := h.served.event j (by omega) hne
      exact ⟨m', g1, e, g2⟩) ev l2 l1 m hm hq
  refine ⟨m', h1, x, h3, h4, ?_⟩
  rcases h.stq (m := m') (by omega) with ⟨_, ev', g4, g5⟩ | ⟨g3, _⟩
  · have h4 : (σ.node m' a).stQ = ev :: (l2 ++ x) := h4
    rw [h4] at g4
    simp only [List.cons.injEq] at g4
    obtain ⟨rfl, g4⟩ := g4
    exact ⟨g4.symm, g5⟩
  · exact absurd h2 g3

theorem taken' (h : Halted f lists correct mode leader σ n0 a k r) {m : Nat} (hm : n0 ≤ m) {ev : SMREvent} (hq : ev ∈ (σ.node m a).stQ) :
    ∃ m' q, m ≤ m' ∧ (σ.node m' a).stQ = ev :: q ∧
      ∃ e, σ.act m' = some (a, .arm .event e none) ∧ (σ.node (m' + 1) a).st = (runArm (.event ev) e ⟨(σ.node m' a).st, []⟩).2.st ∧
        (σ.node (m' + 1) a).log = (σ.node m' a).log ++ (runArm (.event ev) e ⟨(σ.node m' a).st, []⟩).2.log := by
  obtain ⟨l1, l2, hl⟩ := List.append_of_mem hq
  obtain ⟨m', h1, x, _, h3, _, e, h4, h5, h6, _⟩ := h.taken (fun _ => True) (n := n0) (Nat.le_refl _) (fun _ _ _ _ _ _ _ _ => trivial) hm hl
  exact ⟨m', _, h1, h3, e, h4, h5, h6⟩

/-- No order to enter a higher round of the height. -/
theorem noRound (h : Halted f lists correct mode leader σ n0 a k r) {m : Nat} (hm : n0 ≤ m) {r' : Nat} (hr : r < r') {lr lp fr ni nc} :
    .newRoundInfo k r' lr lp fr ni nc ∉ (σ.node m a).stQ := by
  intro hq
  obtain ⟨m', q, h1, h2, e, h3, h4, _⟩ := h.taken' hm hq
  obtain ⟨hp1, hp2⟩ := h.pos (m := m') (by omega)
  have ho := event_out e (σ.node m' a).st (.newRoundInfo k r' lr lp fr ni nc) hp2 (h.facts (m := m') (by omega)).nt.run
  refine absurd (.inr (.inl ?_)) (h.noadv (m' + 1) (by omega))
  rw [h4]
  cases ho with
  | newRound _ _ _ _ _ _ _ o => exact ⟨by rw [o.same.height, hp1], by rw [o.round]; exact hr⟩

/-- No order to commit a block of the height. -/
theorem noCommit (h : Halted f lists correct mode leader σ n0 a k r) {m : Nat} (hm : n0 ≤ m) {x : Hash} (hx : (f x).1 = k) :
    .commit x ∉ (σ.node m a).stQ := by
  intro hq
  obtain ⟨m', q, h1, h2, e, h3, h4, h5⟩ := h.taken' hm hq
  obtain ⟨hp1, hp2⟩ := h.pos (m := m') (by omega)
  have hd := h.served.up m' (by omega)
  obtain ⟨N', l, c, res, g1, g2, g3, _⟩ := C53_commits h.enc h.glists h.few h.leaders _ _ (past_run σ m') (past_ok h.ok m') a h.cor
    hd hp2 (h.facts (m := m') (by omega)).nt.run e (h.served.works m' _ _ _ (by omega) h3).1 x q h2 (by rw [hx]; exact hp1.symm)
  rw [σ.next m' _ _ h3] at g1
  cases g1
  refine absurd (.inr (.inr ⟨c, res, ?_⟩)) (h.noadv (m' + 1) (by omega))
  obtain ⟨l0, hl0⟩ := h.grows (m := m') (by omega)
  unfold doneSince
  have : ((σ.st (m' + 1)).nodes a).log = (σ.node n0 a).log ++ (l0 ++ l) := by
    rw [g2, ← List.append_assoc, ← hl0]; rfl
  rw [this]
  unfold NetRun.node
  rw [List.drop_left]
  refine List.mem_append_right _ ?_
  have hp1 : ((σ.st m').nodes a).st.height = k := hp1
  rwa [hp1] at g3

/-- The voting state machine stays in the round. -/
theorem smr (h : Halted f lists correct mode leader σ n0 a k r) {m : Nat} (hm : n0 ≤ m) :
    (σ.node m a).sys.smr.height = k ∧ (σ.node m a).sys.smr.round = r ∧ (σ.node m a).sys.smr.step ≠ .commit := by
  have key : ∀ d, (σ.node (n0 + d) a).sys.smr.height = k ∧ (σ.node (n0 + d) a).sys.smr.round = r ∧ (σ.node (n0 + d) a).sys.smr.step ≠ .commit := by
    intro d
    induction d with
    | zero => exact h.inr.smr
    | succ d ih =>
      rw [← Nat.add_assoc]
      generalize hM : n0 + d = m at *
      have hm : n0 ≤ m := by omega
      rcases h.view hm with ⟨x, h1, h2⟩ | ⟨_, h2⟩
      swap
      · rw [h2]; exact ih
      cases h2 with
      | arm b e i n1 ht hn =>
        have : (σ.node (m + 1) a).sys.smr = (σ.node m a).sys.smr := by
          rw [hn]; show n1.sys.smr = _; rw [(take_spec ht).2.2.2.1]
        rw [this]; exact ih
      | time x a hs hx g1 g2 g3 => rw [g3]; exact ih
      | verifyDone c i m au hm hn => rw [hn]; exact ih
      | checkDone i b g0 => rw [g0]; exact ih
      | smr t q hq hs g1 g2 g3 =>
        obtain ⟨i1, i2, i3⟩ := ih
        have ok := h.ok m a _ h1 h.cor
        have hsm : t.round < 2 ^ 64 - 1 := ok.1.rounds t q hq
        have hf := h.facts hm
        have hto : TrigOk t := hf.nt.tinv.trigs t (by rw [show ((σ.st m).nodes a).sys.trigQ = t :: q from hq]; simp)
        have hle : (σ.node (m + 1) a).sys.smr.height ≤ (σ.node (m + 1) a).st.height :=
          (((h.facts (m := m + 1) (by omega)).ready.inv a h.cor).live (h.served.up _ (by omega))).smrLe
        rw [(h.pos (m := m + 1) (by omega)).1] at hle
        have inc : ∀ x, x < 2 ^ 64 - 1 → inc64 x = x + 1 := by intro x hx; unfold inc64 U64; omega
        have rnd : ∀ ev ∈ (σ.node (m + 1) a).stQ, ∀ k' r' lr lp fr ni nc, ev = .newRoundInfo k' r' lr lp fr ni nc → k' = k → r < r' → False := by
          rintro ev hev k' r' lr lp fr ni nc rfl rfl hr
          exact h.noRound (by omega) hr hev
        have com : ∀ {x}, (f x).1 = k → .commit x ∉ (σ.node (m + 1) a).stQ := fun hx => h.noCommit (by omega) hx
        rw [g2] at rnd com
        rw [g3] at hle ⊢
        have hc := smr_case (σ.node m a).sys.smr t
        generalize (σ.node m a).sys.smr.onTrigger t = o at *
        generalize hs : (σ.node m a).sys.smr = s at *
        cases hc with
        | quiet res => exact ⟨i1, i2, i3⟩
        | newHeight st ht hs hh => simp only at hle; omega
        | propTimer ht hs hh hr hst => exact ⟨i1, i2, by simp⟩
        | propState s1 ht hs hh hr hst hne hacc =>
          obtain ⟨a1, a2, _⟩ := accept_spec hacc
          exact ⟨a1.trans i1, a2.trans i2, by simp⟩
        | prevoteTimer b ht hs hh hr hst hb => exact ⟨i1, i2, by simp⟩
        | prevoteSame ht hs hh hr hst =>
          exact ⟨by simp only [updatePolc_height]; exact i1, by simp only [updatePolc_round]; exact i2, by simp⟩
        | prevoteSkip ht hs hh hr =>
          exact (rnd _ (List.mem_append_right _ (List.mem_cons_self ..)) _ _ _ _ _ _ _ rfl i1 (by rw [inc _ hsm]; omega)).elim
        | precommitTimer ht hs hh hr hst => exact ⟨i1, i2, by simp⟩
        | precommitNil ht hs hh hr hst hn =>
          exact (rnd _ (List.mem_append_right _ (List.mem_cons_self ..)) _ _ _ _ _ _ _ rfl i1 (by rw [inc _ hsm]; omega)).elim
        | commit ht hs' hh hst hn =>
          have hr := ((hf.ready.node a h.cor).up (h.served.up m hm)).2.trig t (by rw [show ((σ.st m).nodes a).sys.trigQ = t :: q from hq]; simp) (.inl hs')
          have hfit := hr.fit hs' (.inr (.inr ht)) hn
          refine absurd ?_ (com (hfit.trans (hh.trans i1)))
          refine List.mem_append_right _ ?_
          simp [Out.toState]
        | brake ht hs hh hr => exact ⟨i1, i2, i3⟩
        | cont ht hs hh hr =>
          exact (rnd _ (List.mem_append_right _ (List.mem_cons_self ..)) _ _ _ _ _ _ _ rfl i1 (by rw [inc _ (by omega)]; omega)).elim
        | wal w ht => exact absurd ht hto.notWal
        | stop ht =>
          exfalso
          rcases hto with ⟨_, hx⟩ | ⟨_, hx⟩ <;> rw [ht] at hx <;> simp at hx
  have := key (m - n0)
  rwa [show n0 + (m - n0) = m by omega] at this

end Halted

end

end Overlord.Pace
