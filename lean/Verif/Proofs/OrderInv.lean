import Verif.Proofs.ReadyNet

/-!
The State takes up the orders of the voting state machine in the round they are for, and knows the leader of that round (used for C53).
-/

set_option linter.unusedSimpArgs false
set_option linter.unusedVariables false
set_option linter.unusedSectionVars false
set_option linter.unnecessarySeqFocus false

namespace Overlord
open M Spec

variable {T : Type} [ContentCodec T] [DecidableEq T]

namespace Rdy

/-- The State knows the leader of its round, or knows of none (in round 0, after a start without a record). -/
def Ent (leader : Nat → Nat → Address) (s : State T) : Prop :=
  (s.leaderAddress = leader s.height s.round ∧ s.isLeader = decide (leader s.height s.round = s.address)) ∨
  (s.leaderAddress = [] ∧ s.isLeader = false ∧ s.round = 0)

/-- The orders of height `H` that a State in round `r` will take up lead to round `mr`, each is for the round the State will be in;
`ent` becomes true when a round is entered. -/
def Ord (H : Nat) : Prop → Nat → List SMREvent → Nat → Prop
  | ent, r, [], mr => ent ∧ r = mr
  | ent, r, .newRoundInfo h r' _ _ _ _ _ :: evs, mr => (h = H → Ord H True r' evs mr) ∧ (h ≠ H → Ord H ent r evs mr)
  | ent, r, .prevoteVote h r' _ _ :: evs, mr => (h = H → ent ∧ r' = r) ∧ Ord H ent r evs mr
  | ent, r, .precommitVote h r' _ _ :: evs, mr => (h = H → ent ∧ r' = r) ∧ Ord H ent r evs mr
  | ent, r, .brake h r' _ :: evs, mr => (h = H → ent ∧ r' = r) ∧ Ord H ent r evs mr
  | ent, r, .commit _ :: evs, mr => Ord H ent r evs mr
  | ent, r, .stop :: evs, mr => Ord H ent r evs mr

theorem ord_mono {H : Nat} {mr : Nat} : ∀ (evs : List SMREvent) (e e' : Prop) (r : Nat), (e → e') → Ord H e r evs mr → Ord H e' r evs mr := by
  intro evs
  induction evs with
  | nil => intro e e' r h ho; exact ⟨h ho.1, ho.2⟩
  | cons ev evs ih =>
    intro e e' r h ho
    cases ev with
    | newRoundInfo => exact ⟨ho.1, fun hh => ih _ _ _ h (ho.2 hh)⟩
    | prevoteVote => exact ⟨fun hh => ⟨h (ho.1 hh).1, (ho.1 hh).2⟩, ih _ _ _ h ho.2⟩
    | precommitVote => exact ⟨fun hh => ⟨h (ho.1 hh).1, (ho.1 hh).2⟩, ih _ _ _ h ho.2⟩
    | brake => exact ⟨fun hh => ⟨h (ho.1 hh).1, (ho.1 hh).2⟩, ih _ _ _ h ho.2⟩
    | commit => exact ih _ _ _ h ho
    | stop => exact ih _ _ _ h ho

theorem ord_append {H : Nat} {evs' : List SMREvent} {mr mr' : Nat} (hk : Ord H True mr evs' mr') :
    ∀ (evs : List SMREvent) (e : Prop) (r : Nat), Ord H e r evs mr → Ord H e r (evs ++ evs') mr' := by
  intro evs
  induction evs with
  | nil => intro e r h; obtain ⟨h1, h2⟩ := h; subst h2; exact ord_mono _ _ _ _ (fun _ => h1) hk
  | cons ev evs ih =>
    intro e r ho
    cases ev with
    | newRoundInfo => exact ⟨fun hh => ih _ _ (ho.1 hh), fun hh => ih _ _ (ho.2 hh)⟩
    | prevoteVote => exact ⟨ho.1, ih _ _ ho.2⟩
    | precommitVote => exact ⟨ho.1, ih _ _ ho.2⟩
    | brake => exact ⟨ho.1, ih _ _ ho.2⟩
    | commit => exact ih _ _ ho
    | stop => exact ih _ _ ho

/-- The height of an order, including orders to ask for a new round. -/
def evHeight : SMREvent → Option Nat
  | .brake h .. => some h
  | ev => orderHeight ev

theorem ord_skip {H : Nat} {mr : Nat} {tail : List SMREvent} : ∀ (evs : List SMREvent) (e : Prop) (r : Nat),
    (∀ ev ∈ evs, ∀ h, evHeight ev = some h → h ≠ H) → Ord H e r tail mr → Ord H e r (evs ++ tail) mr := by
  intro evs
  induction evs with
  | nil => intro e r _ h; exact h
  | cons ev evs ih =>
    intro e r hl ho
    have ih' := ih e r (fun ev' h' => hl ev' (List.mem_cons_of_mem _ h')) ho
    have h0 := hl ev (by simp)
    cases ev with
    | newRoundInfo h => exact ⟨fun hh => absurd hh (h0 h rfl), fun _ => ih'⟩
    | prevoteVote h => exact ⟨fun hh => absurd hh (h0 h rfl), ih'⟩
    | precommitVote h => exact ⟨fun hh => absurd hh (h0 h rfl), ih'⟩
    | brake h => exact ⟨fun hh => absurd hh (h0 h rfl), ih'⟩
    | commit => exact ih'
    | stop => exact ih'

theorem ord_smr {m : Smr} {t : SMRTrigger} (hw : NotWal t) (hh : (m.onTrigger t).next.height = m.height) :
    Ord m.height True m.round ((m.onTrigger t).outs.filterMap Out.toState) (m.onTrigger t).next.round := by
  have hc := smr_case m t
  generalize m.onTrigger t = o at *
  cases hc with
  | newHeight st ht hs hlt => simp only at hh; omega
  | propState s1 ht hs h1 h2 hstp hne hacc =>
    obtain ⟨a1, a2, _⟩ := accept_spec hacc
    simp [Ord, Out.toState, a1, a2]
  | wal w ht => exact absurd ht hw
  | _ => simp [Ord, Out.toState, updatePolc_round]

theorem smr_evHeights {m : Smr} {t : SMRTrigger} (hw : NotWal t) :
    ∀ ev ∈ (m.onTrigger t).outs.filterMap Out.toState, ∀ h, evHeight ev = some h → h = (m.onTrigger t).next.height := by
  have hc := smr_case m t
  generalize m.onTrigger t = o at *
  cases hc with
  | propState s1 ht hs h1 h2 hstp hne hacc =>
    have := accept_spec hacc
    simp [Out.toState, evHeight, orderHeight, this]
  | wal w ht => exact absurd ht hw
  | _ => simp [Out.toState, evHeight, orderHeight, updatePolc_height]

/-- What is known about the orders of a running node. -/
structure NodeOrd (leader : Nat → Nat → Address) (n : NodeSys T) : Prop where
  le : ∀ ev ∈ n.stQ, ∀ h, evHeight ev = some h → h ≤ n.sys.smr.height
  ord : n.st.consensusPower = true → n.sys.smr.height = n.st.height → Ord n.st.height (Ent leader n.st) n.st.round n.stQ n.sys.smr.round

/-- The voting state machine handles a trigger. -/
theorem ord_trigger {leader : Nat → Nat → Address} {n n' : NodeSys T} {t : SMRTrigger} (h : NodeOrd leader n) (hw : NotWal t)
    (h2 : n'.st = n.st) (h3 : n'.sys.smr = (n.sys.smr.onTrigger t).next)
    (h4 : n'.stQ = n.stQ ++ (n.sys.smr.onTrigger t).outs.filterMap Out.toState) : NodeOrd leader n' := by
  obtain ⟨g1, _, g3⟩ := smr_heights (m := n.sys.smr) hw
  refine ⟨?_, ?_⟩
  · intro ev hev hh ho
    rw [h4] at hev
    rw [h3]
    rcases List.mem_append.1 hev with hev | hev
    · exact Nat.le_trans (h.le ev hev hh ho) g1
    · exact Nat.le_of_eq (smr_evHeights hw ev hev hh ho)
  · rw [h2, h3, h4]
    intro hp heq
    rcases g3 with g3 | ⟨st, g3, g4, g5, f, ni, nc, g6⟩
    · rw [g3] at heq
      refine ord_append ?_ _ _ _ (h.ord hp heq)
      rw [← heq]
      exact ord_smr hw g3
    · rw [g5] at heq
      simp only at heq
      refine ord_skip _ _ _ (fun ev hev hh ho => ?_) ?_
      · have := h.le ev hev hh ho; omega
      · rw [g6, g5, ← heq]
        simp [Out.toState, Ord]

theorem ord_frame {leader : Nat → Nat → Address} {n n' : NodeSys T} (h : NodeOrd leader n) (h2 : n'.st = n.st) (h3 : n'.sys.smr = n.sys.smr)
    (h4 : n'.stQ = n.stQ) : NodeOrd leader n' :=
  ⟨by rw [h3, h4]; exact h.le, by rw [h2, h3, h4]; exact h.ord⟩

/-- Only orders to enter a round change the round and the leader at a height. -/
theorem arm_lead {e : Env T} {s : State T} {i : Input T} (hi : i ≠ .start) (hn : ∀ r lr lp f, ¬ NewRoundInput i r lr lp f) :
    s.height < (runArm i e ⟨s, []⟩).2.st.height ∨
    ((runArm i e ⟨s, []⟩).2.st.height = s.height ∧ (runArm i e ⟨s, []⟩).2.st.round = s.round ∧
      (runArm i e ⟨s, []⟩).2.st.consensusPower = s.consensusPower ∧ (runArm i e ⟨s, []⟩).2.st.isLeader = s.isLeader ∧
      (runArm i e ⟨s, []⟩).2.st.leaderAddress = s.leaderAddress ∧ (runArm i e ⟨s, []⟩).2.st.address = s.address) := by
  have hl : ((runArm i e ⟨s, []⟩).2.st.isLeader = s.isLeader ∧ (runArm i e ⟨s, []⟩).2.st.leaderAddress = s.leaderAddress) ∧
      (runArm i e ⟨s, []⟩).2.st.address = s.address :=
    arm_state_inv (e := e) (i := i) (P := fun s' => (s'.isLeader = s.isLeader ∧ s'.leaderAddress = s.leaderAddress) ∧ s'.address = s.address)
      ⟨⟨rfl, rfl⟩, rfl⟩ fun s1 eff s2 h hm => by
        have := Carry.micro_lead hi hn hm
        exact ⟨⟨this.1.trans h.1.1, this.2.trans h.1.2⟩, (micro_address hm).trans h.2⟩
  have same : SamePos s (runArm i e ⟨s, []⟩).2.st → (runArm i e ⟨s, []⟩).2.st.round = s.round → s.height < (runArm i e ⟨s, []⟩).2.st.height ∨
    ((runArm i e ⟨s, []⟩).2.st.height = s.height ∧ (runArm i e ⟨s, []⟩).2.st.round = s.round ∧
      (runArm i e ⟨s, []⟩).2.st.consensusPower = s.consensusPower ∧ (runArm i e ⟨s, []⟩).2.st.isLeader = s.isLeader ∧
      (runArm i e ⟨s, []⟩).2.st.leaderAddress = s.leaderAddress ∧ (runArm i e ⟨s, []⟩).2.st.address = s.address) :=
    fun h1 h2 => .inr ⟨h1.height, h2, h1.power, hl.1.1, hl.1.2, hl.2⟩
  have moves : ∀ (s1 : State T) st (w : World T), s1.height = s.height → s1.round = s.round → s1.consensusPower = s.consensusPower → Moves e s1 st w →
      s.height < w.st.height ∨ (w.st.height = s.height ∧ w.st.round = s.round ∧ w.st.consensusPower = s.consensusPower) := by
    intro s1 st w e1 e2 e3 o
    cases o with
    | stay hh => exact .inr ⟨e1, e2, e3⟩
    | away hh => left; show s.height < st.height; omega
    | lost hh => left; show s.height < st.height; omega
    | adopt hh => left; show s.height < st.height; omega
  cases arm_out e s i hi with
  | quiet ho hs hr => exact same hs hr
  | status st hst o =>
    rcases moves s st _ rfl rfl rfl o with h | ⟨h1, h2, h3⟩
    · exact .inl h
    · exact .inr ⟨h1, h2, h3, hl.1.1, hl.1.2, hl.2⟩
  | event ev hev hp o =>
    subst hev
    generalize (runArm (.event ev) e ⟨s, []⟩).2 = w at *
    cases o with
    | newRound h0 r lr lp f ni nc o => exact absurd ⟨h0, ni, nc, rfl⟩ (hn r lr lp f)
    | prevote h0 r hash lr o => exact same o.same o.round
    | precommit h0 r hash lr o => exact same o.same o.round
    | commit hash o =>
      cases o with
      | none => exact same (.refl _) rfl
      | lost content qc => exact same (.refl _) rfl
      | failed content qc => exact same (.refl _) rfl
      | stuck content qc status x => exact same ⟨rfl, rfl, rfl⟩ rfl
      | done content qc status w2 hb hq hs hc hm =>
        rcases moves { s with authority := Authority.update status.authorityList } status w2 rfl rfl rfl hm with h | ⟨h1, h2, h3⟩
        · exact .inl h
        · exact .inr ⟨h1, h2, h3, hl.1.1, hl.1.2, hl.2⟩
    | brake r lr o => exact same o.same o.round
    | stale h0 r lr hh hw => subst hw; exact same (.refl _) rfl
    | stop hw => subst hw; exact same (.refl _) rfl

/-- The leader is known after entering a round. -/
def EnterOk (leader : Nat → Nat → Address) (n : NodeSys T) (e : Env T) : Prop :=
  ∀ h r lr lp f ni nc q, n.stQ = .newRoundInfo h r lr lp f ni nc :: q → h = n.st.height → n.st.consensusPower = true → n.st.stopped = false →
    Ent leader (runArm (.event (.newRoundInfo h r lr lp f ni nc)) e ⟨n.st, []⟩).2.st

/-- The State handles an input. -/
theorem ord_arm {leader : Nat → Nat → Address} {n n1 : NodeSys T} {a : Arm T} {e : Env T} {i : Input T} {cut : Option Nat}
    (h : NodeOrd leader n) (hle : n.sys.smr.height ≤ n.st.height) (ok : InSync n (.arm a e cut)) (he : a = .event → EnterOk leader n e)
    (ht : n.take a = some (i, n1)) (hup : (n1.took cut (runArm i e ⟨n.st, []⟩)).down = false) :
    NodeOrd leader (n1.took cut (runArm i e ⟨n.st, []⟩)) := by
  obtain ⟨hi, e1, e2, e3, e4⟩ := take_spec ht
  obtain ⟨rfl, hr⟩ := took_up hup
  have k2 : (n1.took none (runArm i e ⟨n.st, []⟩)).st = (runArm i e ⟨n.st, []⟩).2.st := rfl
  have k3 : (n1.took none (runArm i e ⟨n.st, []⟩)).sys.smr = n.sys.smr := by simp [NodeSys.took, NodeSys.absorb, e3]
  have k4 : (n1.took none (runArm i e ⟨n.st, []⟩)).stQ = n1.stQ := rfl
  have sub : ∀ ev ∈ n1.stQ, ev ∈ n.stQ := by
    intro ev hev
    rcases e4 with ⟨e4, _⟩ | ⟨_, ev', _, e4⟩
    · rw [e4] at hev; exact hev
    · rw [e4]; exact List.mem_cons_of_mem _ hev
  refine ⟨by rw [k3, k4]; exact fun ev hev => h.le ev (sub ev hev), ?_⟩
  rw [k2, k3, k4]
  intro hp heq
  by_cases hn : ∃ r lr lp f, NewRoundInput i r lr lp f
  · obtain ⟨r, lr, lp, f, h0, ni, nc, rfl⟩ := hn
    rcases e4 with ⟨_, e5⟩ | ⟨rfl, ev, e5, e4⟩
    · exact absurd rfl (e5 _)
    cases e5
    have hsync := ok _ n1.stQ h0 e4 rfl
    by_cases hidle : n.st.consensusPower = false ∨ n.st.stopped = true
    · rcases hidle with hidle | hidle
      · rw [event_idle (.inl hidle)] at hp
        rw [hidle] at hp; cases hp
      · rw [stopped_ends hidle] at hr; cases hr
    · simp only [not_or, Bool.not_eq_false, Bool.not_eq_true] at hidle
      have hent := he rfl h0 r lr lp f ni nc n1.stQ e4 hsync hidle.1 hidle.2
      have hout := event_out e n.st (.newRoundInfo h0 r lr lp f ni nc) hidle.1 hidle.2
      generalize (runArm (.event (.newRoundInfo h0 r lr lp f ni nc)) e ⟨n.st, []⟩).2 = w at *
      cases hout with
      | newRound _ _ _ _ _ _ _ o =>
        rw [o.same.height] at heq ⊢
        have ho := h.ord hidle.1 heq
        rw [e4] at ho
        rw [o.round]
        exact ord_mono _ _ _ _ (fun _ => hent) (ho.1 hsync)
  · have hn' : ∀ r lr lp f, ¬ NewRoundInput i r lr lp f := fun r lr lp f h => hn ⟨r, lr, lp, f, h⟩
    rcases arm_lead (e := e) (s := n.st) hi hn' with hlt | ⟨g1, g2, g3, g4, g5, g6⟩
    · omega
    · rw [g1] at heq
      rw [g3] at hp
      have ho := h.ord hp heq
      have hent : Ent leader n.st → Ent leader (runArm i e ⟨n.st, []⟩).2.st := by
        unfold Ent; rw [g1, g2, g4, g5, g6]; exact id
      rw [g1, g2]
      refine ord_mono _ _ _ _ hent ?_
      rcases e4 with ⟨e4, _⟩ | ⟨_, ev, e5, e4⟩
      · rw [e4]; exact ho
      · rw [e4] at ho
        cases ev with
        | newRoundInfo h0 r lr lp f ni nc => exact absurd ⟨h0, ni, nc, e5⟩ (hn' r lr lp f)
        | prevoteVote => exact ho.2
        | precommitVote => exact ho.2
        | brake => exact ho.2
        | commit => exact ho
        | stop => exact ho

/-! ## Starts -/

theorem drain_ord {leader : Nat → Nat → Address} : ∀ (ts : List SMRTrigger) (n : NodeSys T), NodeOrd leader n → (∀ t ∈ ts, NotWal t) →
    (n.drain ts).down = false → NodeOrd leader (n.drain ts) := by
  intro ts
  induction ts with
  | nil => intro n h _ _; exact h
  | cons t ts ih =>
    intro n h hw hd
    simp only [NodeSys.drain] at hd ⊢
    split at hd
    · exact ih _ (ord_trigger h (hw t (by simp)) rfl rfl rfl) (fun t' h' => hw t' (List.mem_cons_of_mem _ h')) hd
    · exact ih _ (ord_trigger h (hw t (by simp)) rfl rfl rfl) (fun t' h' => hw t' (List.mem_cons_of_mem _ h')) hd
    · simp at hd
    · simp at hd

theorem restored_lead (s : State T) (w : WalInfo T) (p : Address) :
    (s.restored w p).leaderAddress = p ∧ (s.restored w p).isLeader = decide (p = s.address) := by
  unfold State.restored
  split <;> simp

theorem start_ord {leader : Nat → Nat → Address} {addr : Address} {p : StartParams} {log : List (Effect T)} {e : Env T} {w : World T}
    (h0 : ∀ (rec : WalInfo T) b, (p.list.map Node.address |>.contains addr) = true → e.walLoad = some (some b) → decWalInfo b = .ok rec →
      rec.height ≠ 0 ∧ (Authority.update p.list).getProposer e.mode rec.height rec.round = .ok (leader rec.height rec.round))
    (o : StartOut e (State.new addr p.initHeight p.interval p.list) w)
    (hd : (NodeSys.started addr p log w).down = false) :
    NodeOrd leader (NodeSys.started addr p log w) := by
  have hpow := new_power (T := T) addr p
  generalize hS : (State.new addr p.initHeight p.interval p.list : State T) = S at *
  have hSr : S.round = 0 := by rw [← hS]; rfl
  have hSl : S.leaderAddress = [] ∧ S.isLeader = false := by rw [← hS]; exact ⟨rfl, rfl⟩
  have hSa : S.address = addr := by rw [← hS]; rfl
  have hau : S.authority = Authority.update p.list := by rw [← hS]; rfl
  have quiet : ∀ n' : NodeSys T, n'.st.consensusPower = false ∨ n'.st.height ≠ 0 ∨ (n'.st.round = 0 ∧ n'.st.leaderAddress = [] ∧ n'.st.isLeader = false) →
      n'.sys.smr = Smr.init → n'.stQ = [] → NodeOrd leader n' := by
    intro n' g e3 e4
    refine ⟨by rw [e4]; simp, ?_⟩
    rw [e3, e4]
    intro hp hh
    rcases g with g | g | ⟨g1, g2⟩
    · rw [g] at hp; cases hp
    · exact absurd hh.symm g
    · exact ⟨.inr ⟨g2.1, g2.2, g1⟩, g1⟩
  have resumed : ∀ (b : SMRBase) (n' : NodeSys T), Ent leader n'.st → n'.st.round = b.round → n'.sys.smr = (Smr.init.handleWal b).next → n'.stQ = [] →
      NodeOrd leader n' := by
    intro b n' g g2 e3 e4
    refine ⟨by rw [e4]; simp, ?_⟩
    have m2 : (Smr.init.handleWal b).next.round = b.round := by
      unfold Smr.handleWal; dsimp only; split <;> rfl
    rw [e3, e4, m2]
    intro hp hh
    exact ⟨g, g2⟩
  have known : ∀ (rec : WalInfo T) b, S.consensusPower = true → e.walLoad = some (some b) → decWalInfo b = .ok rec →
      rec.height ≠ 0 ∧ S.authority.getProposer e.mode rec.height rec.round = .ok (leader rec.height rec.round) := by
    intro rec b hp hl hw
    rw [hau]
    exact h0 rec b (by rw [← hpow]; exact hp) hl hw
  have entR : ∀ (rec : WalInfo T) b pr, S.consensusPower = true → e.walLoad = some (some b) → decWalInfo b = .ok rec →
      S.authority.getProposer e.mode rec.height rec.round = .ok pr → Ent leader (S.restored rec pr) := by
    intro rec b pr hp hl hw hx
    have := (known rec b hp hl hw).2
    rw [hx] at this
    cases this
    obtain ⟨r1, r2, r3, r4⟩ := restored_pos S rec (leader rec.height rec.round)
    obtain ⟨r5, r6⟩ := restored_lead S rec (leader rec.height rec.round)
    left
    rw [r1, r2, r4, r5, r6]
    exact ⟨rfl, rfl⟩
  cases o with
  | idle hw h =>
    subst hw
    refine quiet _ ?_ rfl rfl
    have : (NodeSys.started addr p log ⟨S, []⟩).st = S := by unfold NodeSys.started; rw [drain_st]
    rw [this]
    exact .inr (.inr ⟨hSr, hSl⟩)
  | fresh hp hl hh hw =>
    subst hw
    obtain ⟨evt, hdr⟩ := drain_wal ({ (NodeSys.fresh addr p log).absorb
        [.trigger (walTrig { height := S.height, round := S.round, step := .propose, polc := none })] with
      sys := { (NodeSys.fresh addr p log : NodeSys T).sys with trigQ := [] }, st := S, down := false } : NodeSys T)
      { height := S.height, round := S.round, step := .propose, polc := none } (by simp)
    have : NodeSys.started addr p log ⟨S, [.trigger (walTrig { height := S.height, round := S.round, step := .propose, polc := none })]⟩ = _ := hdr
    rw [this]
    exact resumed { height := S.height, round := S.round, step := .propose, polc := none } _ (.inr ⟨hSl.1, hSl.2, hSr⟩) rfl rfl rfl
  | noLeader b rec x hp hl hdec hx hw =>
    rw [(known rec b hp hl hdec).2] at hx; cases hx
  | noLock b rec pr hp hl hdec hx hst hlk hw =>
    subst hw
    refine quiet _ ?_ rfl rfl
    have : (NodeSys.started addr p log ⟨S.restored rec pr, []⟩).st = S.restored rec pr := by unfold NodeSys.started; rw [drain_st]
    rw [this]
    exact .inr (.inl (by rw [(restored_pos S rec pr).1]; exact (known rec b hp hl hdec).1))
  | commit b rec pr lock hp hl hdec hx hst hlk o =>
    have hne := (known rec b hp hl hdec).1
    have r1 := (restored_pos S rec pr).1
    have hts : ∀ t ∈ trigsOf w.log, NotWal t := by
      intro t ht
      rw [mem_trigsOf] at ht
      cases o with
      | none => simp at ht
      | lost content qc => simp at ht
      | failed content qc => simp at ht
      | stuck content qc status x => simp at ht
      | done content qc status w2 hb hq hs hc hm =>
        rcases List.mem_append.1 ht with ht | ht
        · simp at ht
        · cases hm with
          | adopt _ _ _ =>
            have : t = stTrigger (.newHeight status.toSMR) [] none INIT_ROUND status.height := by simpa using ht
            rw [this]; simp [NotWal, stTrigger]
          | _ => simp at ht
    have hh : w.st.height ≠ 0 := by
      cases o with
      | none => rw [r1]; exact hne
      | lost content qc => rw [r1]; exact hne
      | failed content qc => rw [r1]; exact hne
      | stuck content qc status x => show (S.restored rec pr).height ≠ 0; rw [r1]; exact hne
      | done content qc status w2 hb hq hs hc hm =>
        have hge : (S.restored rec pr).height ≤ w2.st.height := by
          cases hm with
          | stay hh => exact Nat.le_refl _
          | away hh => exact Nat.le_of_lt hh
          | lost hh => exact Nat.le_of_lt hh
          | adopt hh => exact Nat.le_of_lt hh
        show w2.st.height ≠ 0
        rw [r1] at hge; omega
    refine drain_ord _ _ (quiet _ (.inr (.inl hh)) rfl rfl) hts hd
  | brake b rec pr hp hl hdec hx hst w1 o hw =>
    obtain ⟨h1, _⟩ := known rec b hp hl hdec
    obtain ⟨r1, r2, r3, r4⟩ := restored_pos S rec pr
    have hts : ∀ t ∈ trigsOf w1.log, t.triggerType = .continueRound ∧ t.height ≠ 0 := by
      intro t ht
      obtain ⟨a, b⟩ := o.trigs t (mem_trigsOf.1 ht)
      exact ⟨a, by rw [b, r1]; exact h1⟩
    rcases hw with rfl | rfl
    · have hdr := drain_idle (trigsOf w.log) [] ({ (NodeSys.fresh addr p log).absorb w.log with
        sys := { (NodeSys.fresh addr p log : NodeSys T).sys with trigQ := [] }, st := w.st, down := false } : NodeSys T)
        hts (by rw [List.append_nil]; exact hd)
      rw [List.append_nil] at hdr
      unfold NodeSys.started
      rw [hdr]
      exact quiet _ (.inr (.inl (by show w.st.height ≠ 0; rw [o.same.height, r1]; exact h1))) rfl rfl
    · have hts2 : trigsOf (w1.log ++ [.trigger (walTrig rec.intoSmrBase)]) = trigsOf w1.log ++ [walTrig rec.intoSmrBase] := by
        rw [trigsOf_append]; rfl
      unfold NodeSys.started at hd ⊢
      dsimp only at hd ⊢
      rw [hts2] at hd ⊢
      have hdr := drain_idle _ _ _ hts hd
      rw [hdr]
      obtain ⟨evt, hdw⟩ := drain_wal ({ (NodeSys.fresh addr p log).absorb (w1.log ++ [.trigger (walTrig rec.intoSmrBase)]) with
        sys := { (NodeSys.fresh addr p log : NodeSys T).sys with trigQ := [] }, st := w1.st, down := false } : NodeSys T)
        rec.intoSmrBase (by simp [WalInfo.intoSmrBase, hst])
      rw [hdw]
      refine resumed rec.intoSmrBase _ ?_ (o.round.trans r2) rfl rfl
      obtain ⟨_, _, _, _, _, k6, k7⟩ := o.keep
      have := entR rec b pr hp hl hdec hx
      unfold Ent at this ⊢
      dsimp only
      rw [k6, k7, o.same.height, o.round, o.same.address]
      exact this
  | resume b rec pr hp hl hdec hx hst hsb hw =>
    subst hw
    obtain ⟨r1, r2, r3, r4⟩ := restored_pos S rec pr
    obtain ⟨evt, hdw⟩ := drain_wal ({ (NodeSys.fresh addr p log).absorb [.trigger (walTrig rec.intoSmrBase)] with
        sys := { (NodeSys.fresh addr p log : NodeSys T).sys with trigQ := [] }, st := S.restored rec pr, down := false } : NodeSys T)
        rec.intoSmrBase (by simp [WalInfo.intoSmrBase, hst])
    have : NodeSys.started addr p log ⟨S.restored rec pr, [.trigger (walTrig rec.intoSmrBase)]⟩ = _ := hdw
    rw [this]
    exact resumed rec.intoSmrBase _ (entR rec b pr hp hl hdec hx) r2 rfl rfl

end Rdy
end Overlord
