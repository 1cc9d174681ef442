import Verif.Proofs.Reason

/-! The chokes of a correct node explain its round (used for C55): starts, steps and networks. -/

set_option linter.unusedSimpArgs false
set_option linter.unusedVariables false
set_option linter.unusedSectionVars false
set_option linter.unnecessarySeqFocus false

namespace Overlord
open M Spec

variable {T : Type} [ContentCodec T] [DecidableEq T]

namespace Why

/-- `wp_start` for a State that finds the leader of the recorded round. -/
theorem wp_startOk {e : Env T} {s : State T} {Q : Unit → World T → Prop} {E : Err → World T → Prop}
    (h0 : s.consensusPower = false → Q () ⟨s, []⟩)
    (h1 : s.consensusPower = true → e.walLoad = none ∨ (∃ b x, e.walLoad = some (some b) ∧
      decWalInfo (T := T) b = .error x) → ∀ x, E x ⟨s, []⟩)
    (h2 : s.consensusPower = true → e.walLoad = some none → s.height = INIT_HEIGHT → Q () ⟨s, []⟩)
    (h3 : s.consensusPower = true → e.walLoad = some none → s.height ≠ INIT_HEIGHT →
      Q () ⟨s, [.trigger (walTrig { height := s.height, round := s.round, step := .propose, polc := none })]⟩)
    (h4 : ∀ b w, s.consensusPower = true → e.walLoad = some (some b) → decWalInfo b = .ok w →
      (∀ x, s.authority.getProposer e.mode w.height w.round ≠ .error x) ∧
      ∀ p, s.authority.getProposer e.mode w.height w.round = .ok p →
        (w.step = .commit → w.lock = none → E .loadWalErr ⟨s.restored w p, []⟩) ∧
        (∀ lock, w.step = .commit → w.lock = some lock →
          wp (handleCommit lock.lockVotes.blockHash) e ⟨s.restored w p, []⟩ Q E) ∧
        (w.step = .brake → wp (handleBrake w.round (w.lock.map WalLock.lockRound)) e ⟨s.restored w p, []⟩
          (fun _ w' => Q () ⟨w'.st, w'.log ++ [.trigger (walTrig w.intoSmrBase)]⟩) E) ∧
        (w.step ≠ .commit → w.step ≠ .brake →
          Q () ⟨s.restored w p, [.trigger (walTrig w.intoSmrBase)]⟩)) :
    wp startWithWal e ⟨s, []⟩ Q E := by
  unfold startWithWal
  rw [wp_bind, wp_get, wp_ite]
  refine ⟨h0, fun hp => ?_⟩
  have hp := (Bool.not_eq_false _).mp hp
  rw [wp_bind]
  unfold loadWal
  rw [wp_bind, wp_ask]
  split
  · rename_i hl
    exact h1 hp (.inl hl) _
  · rename_i hl
    wps [walLost]
    exact ⟨fun hh => h3 hp hl hh, fun hh => h2 hp hl (Decidable.not_not.1 hh)⟩
  · rename_i b hl
    split
    · rename_i w hd
      obtain ⟨g1, g2⟩ := h4 b w hp hl hd
      wps
      refine isProposer_err (fun x hx => absurd hx (g1 x)) fun p hpr => ?_
      obtain ⟨k1, k2, k3, k4⟩ := g2 p hpr
      unfold State.restored at k1 k2 k3 k4
      cases hk : w.lock with
      | none =>
        rw [hk] at k1 k2 k3 k4
        wps
        exact ⟨fun hc => k1 hc rfl, fun hc => ⟨fun hb => k3 hb, fun hb => k4 hc hb⟩⟩
      | some lock =>
        rw [hk] at k1 k2 k3 k4
        wps
        exact ⟨fun hc => k2 lock hc rfl, fun hc => ⟨fun hb => k3 hb, fun hb => k4 hc hb⟩⟩
    · rename_i hd
      exact h1 hp (.inr ⟨b, _, hl, hd⟩) _
    · rename_i hd
      exact h1 hp (.inr ⟨b, _, hl, hd⟩) _

theorem wp_self {α : Type} (m : M T α) (e : Env T) (w : World T) : wp m e w (fun _ w' => w' = (m e w).2) (fun _ w' => w' = (m e w).2) := by
  unfold wp
  split <;> rename_i h <;> rw [h]

theorem wp_of {α : Type} {m : M T α} {e : Env T} {w : World T} {P : World T → Prop} (h : P (m e w).2) : wp m e w (fun _ => P) (fun _ => P) := by
  refine wp_mono (wp_self m e w) ?_ ?_ <;> (intro _ w' hw; rw [hw]; exact h)

/-- Asking for a new round, as if ordered. -/
theorem brake_event {e : Env T} {s : State T} (hp : s.consensusPower = true) (hs : s.stopped = false) (r : Nat) (lr : Option Nat) :
    (runArm (.event (.brake s.height r lr)) e ⟨s, []⟩).2 = (handleBrake r lr e ⟨s, []⟩).2 := by
  refine event_post (P := fun w => w = (handleBrake r lr e ⟨s, []⟩).2) hp hs ?_
  unfold handleEvent
  wps
  refine ⟨fun h => absurd rfl h, fun _ => ?_⟩
  exact wp_mono (wp_self _ e _) (fun _ _ h => h) (fun _ _ h => ⟨fun _ => h, fun _ => h⟩)

/-- Committing, as if ordered. -/
theorem commit_event {e : Env T} {s : State T} (hp : s.consensusPower = true) (hs : s.stopped = false) (h : Hash) :
    (runArm (.event (.commit h)) e ⟨s, []⟩).2 = (handleCommit h e ⟨s, []⟩).2 := by
  refine event_post (P := fun w => w = (handleCommit h e ⟨s, []⟩).2) hp hs ?_
  unfold handleEvent
  wps
  exact wp_mono (wp_self _ e _) (fun _ _ h => h) (fun _ _ h => ⟨fun _ => h, fun _ => h⟩)

theorem start_why {lists : Nat → List Node} {B : Certs} {e : Env T} {addr : Address} {p : StartParams} (hsv : ∀ b, e.walSave b = true)
    (hrec : ∀ b (w : WalInfo T), (p.list.map Node.address).contains addr = true → e.walLoad = some (some b) → decWalInfo b = .ok w →
      p.list = lists w.height ∧ (∀ x, (Authority.update p.list).getProposer e.mode w.height w.round ≠ .error x) ∧ Ok lists B w.height w.round w.from) :
    StWhy lists B (runArm .start e ⟨(State.new addr p.initHeight p.interval p.list : State T), []⟩).2.st ∧
      ∀ x ∈ (runArm .start e ⟨(State.new addr p.initHeight p.interval p.list : State T), []⟩).2.log, EffWhy lists B x := by
  have hpow := new_power (T := T) addr p
  have hau : (State.new addr p.initHeight p.interval p.list : State T).authority = Authority.update p.list := rfl
  have hck : (State.new addr p.initHeight p.interval p.list : State T).chokes = .new := rfl
  have hr0 : (State.new addr p.initHeight p.interval p.list : State T).round = 0 := rfl
  have hst : (State.new addr p.initHeight p.interval p.list : State T).stopped = false := rfl
  rw [← hpow] at hrec
  generalize (State.new addr p.initHeight p.interval p.list : State T) = s at *
  have new : StWhy lists B s := by
    refine ⟨by rw [hck]; exact ChokesOk.new, fun _ r qc hq => ?_, fun _ h => ?_⟩
    · rw [hck] at hq; simp [ChokeCollector.new, ChokeCollector.getQc, AMap.get?] at hq
    · rw [hr0] at h; exact absurd h (by simp)
  refine wp_post (P := fun w => StWhy lists B w.st ∧ ∀ x ∈ w.log, EffWhy lists B x) ?_
  unfold runArm
  wps
  have wl : ∀ b : SMRBase, ∀ x ∈ [Effect.trigger (T := T) (walTrig b)], EffWhy lists B x := by
    intro b x hx; simp only [List.mem_singleton] at hx; subst hx; trivial
  have main : wp startWithWal e ⟨s, []⟩ (fun _ w => StWhy lists B w.st ∧ ∀ x ∈ w.log, EffWhy lists B x) (fun _ w => StWhy lists B w.st ∧ ∀ x ∈ w.log, EffWhy lists B x) := by
    refine wp_startOk (fun _ => ⟨new, by simp⟩) (fun _ _ _ => ⟨new, by simp⟩) (fun _ _ _ => ⟨new, by simp⟩) (fun _ _ _ => ⟨new, wl _⟩) ?_
    intro b w hp hl hd
    obtain ⟨k1, k2, k3⟩ := hrec b w hp hl hd
    refine ⟨by rw [hau]; exact k2, fun q hq => ?_⟩
    have r1 := restored_pos s w q
    have r2 : (s.restored w q).updateFrom = w.from := by unfold State.restored; split <;> rfl
    have r3 : (s.restored w q).authority = s.authority := by unfold State.restored; split <;> rfl
    have r4 : (s.restored w q).chokes = s.chokes := by unfold State.restored; split <;> rfl
    have r5 : (s.restored w q).stopped = s.stopped := by unfold State.restored; split <;> rfl
    have rest : StWhy lists B (s.restored w q) := by
      refine ⟨by rw [r4, hck]; exact ChokesOk.new, fun _ r qc hq => ?_, fun _ => ?_⟩
      · rw [r4, hck] at hq; simp [ChokeCollector.new, ChokeCollector.getQc, AMap.get?] at hq
      · rw [r1.1, r1.2.1, r2]; exact k3
    have ra : (s.restored w q).consensusPower = true → (s.restored w q).authority = Authority.update (lists (s.restored w q).height) := by
      intro _; rw [r3, hau, r1.1, k1]
    refine ⟨fun _ _ => ⟨rest, by simp⟩, fun lock _ _ => ?_, fun _ => ?_, fun _ _ => ⟨rest, wl _⟩⟩
    · refine wp_of (P := fun w => StWhy lists B w.st ∧ ∀ x ∈ w.log, EffWhy lists B x) ?_
      rw [← commit_event (by rw [r1.2.2.1]; exact hp) (by rw [r5]; exact hst)]
      exact arm_why (by simp) hsv ra rest (by rintro _ _ _ _ _ _ _ hx; cases hx)
    · have := arm_why (e := e) (i := .event (.brake (s.restored w q).height w.round (w.lock.map WalLock.lockRound))) (by simp) hsv ra rest
        (by rintro _ _ _ _ _ _ _ hx; cases hx)
      rw [brake_event (by rw [r1.2.2.1]; exact hp) (by rw [r5]; exact hst)] at this
      refine wp_mono (wp_of (P := fun w => StWhy lists B w.st ∧ ∀ x ∈ w.log, EffWhy lists B x) this) ?_ (fun _ _ h => h)
      rintro _ w' ⟨g1, g2⟩
      refine ⟨g1, fun x hx => ?_⟩
      rcases List.mem_append.1 hx with hx | hx
      · exact g2 x hx
      · exact wl _ x hx
  exact wp_mono main (fun _ _ h => h) (fun _ _ h => ⟨fun _ => h, fun _ => h⟩)

/-- What is known about a correct node. -/
structure NodeWhy (lists : Nat → List Node) (B : Certs) (n : NodeSys T) : Prop where
  log : ∀ x ∈ n.log, EffWhy lists B x
  st : n.down = false → StWhy lists B n.st
  ev : n.down = false → ∀ ev ∈ n.stQ, EvWhy B ev

theorem NodeWhy.mono {lists : Nat → List Node} {B B' : Certs} (hB : ∀ ty k r x, B ty k r x → B' ty k r x) {n : NodeSys T} (h : NodeWhy lists B n) :
    NodeWhy lists B' n := ⟨fun x hx => (h.log x hx).mono hB, fun hd => (h.st hd).mono hB, fun hd ev he => (h.ev hd ev he).mono hB⟩

/-- What the triggers of a start order. -/
theorem start_trigs {e : Env T} {s : State T} {t : SMRTrigger} (ht : .trigger t ∈ (runArm .start e ⟨s, []⟩).2.log) :
    t.triggerType ≠ .prevoteQC ∧ t.triggerType ≠ .precommitQC ∧ (t.triggerType = .continueRound → t.round < 2 ^ 64) := by
  have o := start_out e s
  generalize (runArm .start e ⟨s, []⟩).2 = w at *
  have wt : ∀ b : SMRBase, t = walTrig b → t.triggerType ≠ .prevoteQC ∧ t.triggerType ≠ .precommitQC ∧ (t.triggerType = .continueRound → t.round < 2 ^ 64) := by
    rintro b rfl; simp [walTrig, stTrigger]
  cases o with
  | idle hw => rw [hw] at ht; simp at ht
  | fresh hp hl hh hw =>
    rw [hw] at ht; simp only [List.mem_singleton, Effect.trigger.injEq] at ht; exact wt _ ht
  | noLeader b rec x hp hl hd hx hw => rw [hw] at ht; simp at ht
  | noLock b rec p hp hl hd hx hst hk hw => rw [hw] at ht; simp at ht
  | commit b rec p lock hp hl hd hx hst hk o =>
    have mv : ∀ (s' : State T) st (w : World T), Moves e s' st w → .trigger t ∈ w.log →
        t.triggerType ≠ .prevoteQC ∧ t.triggerType ≠ .precommitQC ∧ (t.triggerType = .continueRound → t.round < 2 ^ 64) := by
      intro s' st w o ht
      cases o with
      | adopt => simp at ht; subst ht; simp [stTrigger]
      | _ => simp at ht
    cases o with
    | done content qc status w' hb hq hsv' hc hm => simp at ht; exact mv _ _ _ hm ht
    | _ => simp at ht
  | brake b rec p hp hl hd hx hst w1 o hw =>
    have key : .trigger t ∈ w1.log → t.triggerType ≠ .prevoteQC ∧ t.triggerType ≠ .precommitQC ∧ (t.triggerType = .continueRound → t.round < 2 ^ 64) := by
      intro h
      rw [(o.trigs t h).1]
      obtain ⟨r, qc, h1, _⟩ := o.choke t h
      refine ⟨by simp, by simp, fun _ => ?_⟩
      rw [h1]; unfold inc64 U64; omega
    rcases hw with rfl | rfl
    · exact key ht
    · rcases List.mem_append.1 ht with ht | ht
      · exact key ht
      · simp only [List.mem_singleton, Effect.trigger.injEq] at ht; exact wt _ ht
  | resume b rec p hp hl hd hx hst hsb hw =>
    rw [hw] at ht; simp only [List.mem_singleton, Effect.trigger.injEq] at ht; exact wt _ ht

/-- Predicates on the orders of a start. -/
def evPreds (T : Type) (B : Certs) : Preds T where
  st := fun _ => True
  smr := fun _ => True
  trig := fun t => TrigCert B t ∧ t.triggerType ≠ .prevoteQC ∧ t.triggerType ≠ .precommitQC ∧ (t.triggerType = .continueRound → t.round < 2 ^ 64)
  ev := EvWhy B
  msg := fun _ => True
  ver := fun _ _ => True
  chk := fun _ _ _ _ => True
  resp := fun _ => True

/-- The orders after a start. -/
theorem start_ev {B : Certs} {e : Env T} {addr : Address} {p : StartParams} {log : List (Effect T)} {s : State T}
    (hB : ∀ x ∈ (runArm .start e ⟨s, []⟩).2.log, EffGen B x) :
    ∀ ev ∈ (NodeSys.started addr p log (runArm .start e ⟨s, []⟩).2).stQ, EvWhy B ev := by
  have hP : (evPreds T B).Holds (NodeSys.started addr p log (runArm .start e ⟨s, []⟩).2) := by
    unfold NodeSys.started
    refine Preds.drain (P := evPreds T B) ?_ _ _ ⟨trivial, trivial, by simp, by simp [NodeSys.absorb, NodeSys.fresh], fun _ _ => trivial, fun _ _ _ => trivial, fun _ _ _ _ _ => trivial, fun _ _ => trivial⟩ ?_
    · intro m t _ ⟨h1, h2, h3, h4⟩
      exact ⟨trivial, smr_why m t h1 (fun h => absurd h (by simp [h2, h3])) h4⟩
    · intro t ht
      have ht := mem_trigsOf.1 ht
      have := start_trigs ht
      exact ⟨hB _ ht, this⟩
  exact hP.ev

open Rdy in
/-- At most one block is certified in a round, by votes of one type. -/
theorem cert_one {f : Hash → Nat × T} {lists : Nat → List Node} {correct : Address → Bool} {N : NetSys T} (few : FewFaulty lists correct)
    (h : NetReady f lists correct N) {ty : VoteType} {k r : Nat} {x y : Hash} (h1 : Certified lists correct N.votes ty k r x)
    (h2 : Certified lists correct N.votes ty k r y) : x = y := by
  obtain ⟨a, hc, hx, hy⟩ := cert_inter few h1 h2
  obtain ⟨sv, g1, g2⟩ := (h.gen.mine _ _).1 hx
  obtain ⟨sw, g3, g4⟩ := (h.gen.mine _ _).1 hy
  have hs := (h.inv a hc).good.sorted
  rw [votesOf_obs] at g1 g3
  have : sv = sw := one_of_sorted hs g1 g3 (by simp [votePos, g2, g4])
  rw [this, g4] at g2
  simpa using g2.symm

open Rdy in
theorem why_step {f : Hash → Nat × T} {lists : Nat → List Node} {correct : Address → Bool} {mode : LeaderMode} {leader : Nat → Nat → Address}
    (hE : Encodes T) (hgl : GoodLists lists) (few : FewFaulty lists correct) (hL : LeadersExist lists mode leader)
    {N N' : NetSys T} {a : Address} {x : NAct T} (h : NetReady f lists correct N)
    (ho : ∀ b, correct b = true → NodeWhy lists (Certified lists correct N.votes) (N.nodes b))
    (ok : correct a = true → NetStep lists correct N a x ∧ OrderStep f mode N a x)
    (ha : N.act a x = some N') : ∀ b, correct b = true → NodeWhy lists (Certified lists correct N'.votes) (N'.nodes b) := by
  have h' := netReady_step hgl few h ok ha
  unfold NetSys.act at ha
  split at ha
  · cases ha
  rename_i n' hn
  cases ha
  have hsub : ∀ y ∈ N.votes, y ∈ N.votes ++ (votesOf (n'.log.drop (N.nodes a).log.length)).map fun sv => (a, sv.vote) := fun y hy => List.mem_append_left _ hy
  have hB : ∀ ty k r y, Certified lists correct N.votes ty k r y →
      Certified lists correct (N.votes ++ (votesOf (n'.log.drop (N.nodes a).log.length)).map fun sv => (a, sv.vote)) ty k r y := fun _ _ _ _ hc => Certified.mono hsub hc
  intro b hb
  have hgb := h'.gen.gen b hb
  generalize N.votes ++ (votesOf (n'.log.drop (N.nodes a).log.length)).map (fun sv => (a, sv.vote)) = V' at *
  by_cases hba : b = a
  swap
  · simp only [if_neg hba]; exact (ho b hb).mono hB
  subst hba
  simp only [if_true] at hgb ⊢
  obtain ⟨ok1, ok2⟩ := ok hb
  have inv := h.inv b hb
  have ho := (ho b hb).mono hB
  have frame : n'.log = (N.nodes b).log → n'.st = (N.nodes b).st → n'.stQ = (N.nodes b).stQ → n'.down = (N.nodes b).down →
      NodeWhy lists (Certified lists correct V') n' := by
    intro e1 e2 e3 e4
    exact ⟨by rw [e1]; exact ho.log, by rw [e2, e4]; exact ho.st, by rw [e3, e4]; exact ho.ev⟩
  cases x with
  | start p e cut =>
    obtain ⟨hd, hc⟩ := start_act hn
    have hw := start_why (lists := lists) (e := e) (addr := b) (p := p) ok1.saves (by
      intro bb w hli hl hdec
      have s1 := ok1.start
      have s2 := ok1.given.2 hli
      simp only [StartOk, hli, if_true] at s1
      split at s1
      · rw [s1] at hl; cases hl
      · rename_i w' hw
        rw [hw] at s2
        obtain ⟨t1, b', t2, t3⟩ := s1
        rw [t2] at hl; cases hl
        rw [t3] at hdec; cases hdec
        refine ⟨s2, ?_, ?_⟩
        · intro x hx
          rw [s2, show e.mode = mode from ok2.mode, hL] at hx
          cases hx
        · have hmem : w ∈ savedOf (N.nodes b).log := List.mem_of_getLast? hw
          unfold savedOf at hmem
          obtain ⟨y, hy, he⟩ := List.mem_filterMap.1 hmem
          split at he
          · cases he; exact ho.log _ hy
          · cases he)
    rcases hc with ⟨h1, h2⟩ | ⟨h1, _, h3, h4⟩
    · refine ⟨fun x hx => ?_, by rw [h1]; simp, by rw [h1]; simp⟩
      rw [h2] at hx
      rcases List.mem_append.1 hx with hx | hx
      · exact ho.log x hx
      · refine hw.2 x ?_
        cases cut with
        | none => exact hx
        | some k => exact List.mem_of_mem_take hx
    · refine ⟨fun x hx => ?_, fun _ => ?_, fun _ => ?_⟩
      · rw [h3] at hx
        rcases List.mem_append.1 hx with hx | hx
        · exact ho.log x hx
        · exact hw.2 x hx
      · rw [h4, NodeSys.started, drain_st]
        exact hw.1
      · rw [h4]
        refine start_ev fun x hx => hgb.log x ?_
        rw [h3]; exact List.mem_append_right _ hx
  | crash =>
    simp only [NodeSys.act, Option.some.injEq] at hn
    subst hn
    exact ⟨ho.log, by simp, by simp⟩
  | arm x e cut =>
    simp only [NodeSys.act] at hn
    split at hn
    · cases hn
    rename_i hd
    have hd := (Bool.not_eq_true _).mp hd
    split at hn
    · cases hn
    · rename_i i n1 ht
      cases hn
      obtain ⟨t1, t2, t3, t4, t5⟩ := take_spec ht
      have hst := ((h.gen.gen b hb).up hd).st.1
      have hw := arm_why (e := e) (i := i) t1 ok1.saves hst.auth (ho.st hd) (by
        intro k r lr lp fr ni nc hi hp hs
        rcases t5 with ⟨_, t5⟩ | ⟨rfl, ev, t5, t6⟩
        · exact absurd hi (t5 _)
        rw [hi] at t5; cases t5
        have hk : k = (N.nodes b).st.height := by
          exact ok1.inSync _ _ k t6 rfl
        subst hk
        refine ⟨⟨_, by rw [hi]; exact (h.enters hE few hL hb hd hp hs ok2.mode ok1.saves t6).1⟩, fun u hu hr => ?_⟩
        have hev := ho.ev hd _ (by rw [t6]; exact List.mem_cons_self ..)
        rcases hev with hev | hev
        · omega
        cases fr with
        | prevoteQC x =>
          obtain ⟨qc, hq, rfl⟩ := hu
          obtain ⟨e1, e2, e3, e4⟩ := (hst.store hp).votes.getQcById hq
          exact ⟨⟨e3, e1, by rw [e2]; exact hev⟩, fun qc' hq' => by
            rcases hq' with hq' | hq' <;> cases hq'
            exact hB _ _ _ _ (e4 e1)⟩
        | precommitQC x =>
          obtain ⟨g1, g2, g3⟩ := hev
          obtain ⟨qc, hq, rfl⟩ := hu
          have hq := hq.resolve_left fun g => g2 g.1
          obtain ⟨e1, e2, e3, e4⟩ := (hst.store hp).votes.getQcById hq
          refine ⟨⟨e3, e1, by rw [e2]; exact g1, ?_⟩, fun qc' hq' => by
            rcases hq' with hq' | hq' <;> cases hq'
            exact hB _ _ _ _ (e4 e1)⟩
          have e4 : QcIn (Certified lists correct N.votes) qc := e4 e1
          unfold QcIn at e4
          rw [e1, e2, e3] at e4
          exact cert_one few h' (hB _ _ _ _ e4) g3
        | chokeQC x =>
          obtain ⟨qc, hq, rfl⟩ := hu
          obtain ⟨e1, e2⟩ := (ho.st hd).qcs hp _ _ hq
          exact ⟨⟨by rw [e1]; exact hev, e2⟩, by rintro qc' (hq' | hq') <;> cases hq'⟩)
      refine ⟨?_, ?_, ?_⟩
      · intro y hy
        rcases List.mem_append.1 hy with hy | hy
        · rw [t2] at hy; exact ho.log y hy
        · refine hw.2 y ?_
          cases cut with
          | none => exact hy
          | some k => exact List.mem_of_mem_take hy
      · intro hup
        exact hw.1
      · intro hup ev hev
        have hev : ev ∈ n1.stQ := hev
        refine ho.ev hd ev ?_
        rcases t5 with ⟨t5, _⟩ | ⟨_, ev', _, t6⟩
        · rwa [t5] at hev
        · rw [t6]; exact List.mem_cons_of_mem _ hev
  | smr =>
    simp only [NodeSys.act] at hn
    split at hn
    · cases hn
    rename_i hd
    have hd := (Bool.not_eq_true _).mp hd
    split at hn
    · cases hn
    · rename_i t q hq
      have hr := ok1.rounds t q hq
      have htc := (((h.gen.gen b hb).up hd).trig t (by rw [hq]; simp)).1
      have hev := smr_why n'.sys.smr t (htc.mono hB) (fun _ => hr) (fun _ => by omega)
      have key : ∀ ev ∈ (N.nodes b).stQ ++ ((N.nodes b).sys.smr.onTrigger t).outs.filterMap Out.toState, EvWhy (Certified lists correct V') ev := by
        intro ev he
        rcases List.mem_append.1 he with he | he
        · exact ho.ev hd ev he
        · exact smr_why _ t (htc.mono hB) (fun _ => hr) (fun _ => by omega) ev he
      split at hn
      · cases hn
      · rename_i sys hs
        cases hn
        exact ⟨ho.log, fun _ => ho.st hd, fun _ => key⟩
  | verifyDone c i =>
    simp only [NodeSys.act] at hn
    split at hn
    · cases hn
    · split at hn
      · cases hn
      · cases hn; exact frame rfl rfl rfl rfl
  | checkDone i okb =>
    simp only [NodeSys.act] at hn
    split at hn
    · cases hn
    · split at hn
      · cases hn
      · cases hn; exact frame rfl rfl rfl rfl
  | set =>
    simp only [NodeSys.act] at hn
    split at hn
    · cases hn
    · obtain ⟨sys, hs, rfl⟩ := Option.map_eq_some_iff.1 hn
      exact frame rfl rfl rfl rfl
  | expire i =>
    simp only [NodeSys.act] at hn
    split at hn
    · cases hn
    · obtain ⟨sys, hs, rfl⟩ := Option.map_eq_some_iff.1 hn
      exact frame rfl rfl rfl rfl
  | fire i =>
    simp only [NodeSys.act] at hn
    split at hn
    · cases hn
    · obtain ⟨sys, hs, rfl⟩ := Option.map_eq_some_iff.1 hn
      exact frame rfl rfl rfl rfl

open Rdy in
/-- What is known about a network. -/
theorem net_why {f : Hash → Nat × T} {lists : Nat → List Node} {correct : Address → Bool} {mode : LeaderMode} {leader : Nat → Nat → Address}
    (hE : Encodes T) (hgl : GoodLists lists) (few : FewFaulty lists correct) (hL : LeadersExist lists mode leader)
    {as : List (Address × NAct T)} {N : NetSys T} (hr : NetSys.new.run as = some N) (ok : OrderSchedule f lists correct mode as) :
    NetReady f lists correct N ∧ ∀ b, correct b = true → NodeWhy lists (Certified lists correct N.votes) (N.nodes b) := by
  have key : ∀ (as : List (Address × NAct T)) (N N' : NetSys T), NetReady f lists correct N →
      (∀ b, correct b = true → NodeWhy lists (Certified lists correct N.votes) (N.nodes b)) →
      AlongNet (fun N a x => correct a = true → NetStep lists correct N a x ∧ OrderStep f mode N a x) N as → N.run as = some N' →
      NetReady f lists correct N' ∧ ∀ b, correct b = true → NodeWhy lists (Certified lists correct N'.votes) (N'.nodes b) := by
    intro as
    induction as with
    | nil => intro N N' h ho _ hr; simp only [NetSys.run, Option.some.injEq] at hr; exact hr ▸ ⟨h, ho⟩
    | cons y as ih =>
      obtain ⟨a, x⟩ := y
      intro N N' h ho ok hr
      simp only [NetSys.run] at hr
      split at hr
      · cases hr
      · rename_i N1 h1
        exact ih N1 N' (netReady_step hgl few h ok.1 h1) (why_step hE hgl few hL h ho ok.1 h1) (ok.2 N1 h1) hr
  exact key as _ N (netReady_new f lists correct) (fun b _ => ⟨by simp [NetSys.new, NodeSys.new, NodeSys.fresh], by simp [NetSys.new, NodeSys.new, NodeSys.fresh], by simp [NetSys.new, NodeSys.new, NodeSys.fresh]⟩) ok hr

end Why

end Overlord
