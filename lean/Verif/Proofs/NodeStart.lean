import Verif.Proofs.NodeVotes
import Verif.Proofs.Authority

/-! Starts and whole lives of a node (used for C30, C31). -/

set_option linter.unusedSimpArgs false
set_option linter.unusedVariables false
set_option linter.unusedSectionVars false
set_option linter.unnecessarySeqFocus false

namespace Overlord
open M Spec

variable {T : Type} [ContentCodec T] [DecidableEq T]

/-! ## Handling the first triggers -/

theorem drain_down {ts : List SMRTrigger} : ∀ {n : NodeSys T}, (n.drain ts).down = false → n.down = false := by
  induction ts with
  | nil => intro n h; exact h
  | cons t ts ih =>
    intro n h
    simp only [NodeSys.drain] at h
    split at h
    · have := ih h; exact this
    · have := ih h; exact this
    · simp at h
    · simp at h

theorem drain_log {ts : List SMRTrigger} : ∀ (n : NodeSys T), (n.drain ts).log = n.log := by
  induction ts with
  | nil => intro n; rfl
  | cons t ts ih =>
    intro n
    simp only [NodeSys.drain]
    split <;> first | rfl | (rw [ih])

theorem drain_st {ts : List SMRTrigger} : ∀ (n : NodeSys T), (n.drain ts).st = n.st := by
  induction ts with
  | nil => intro n; rfl
  | cons t ts ih =>
    intro n
    simp only [NodeSys.drain]
    split <;> first | rfl | (rw [ih])

/-- The machine handles one trigger after the other. -/
theorem drain_live {k : Nat} {p0 : Pos} : ∀ (ts : List SMRTrigger) (n : NodeSys T),
    Live k p0 { n with sys := { n.sys with trigQ := ts } } → (∀ t ∈ ts, t.round < 2 ^ 64 - 1) →
    n.sys.trigQ = [] → (n.drain ts).down = false → Live k p0 (n.drain ts) := by
  intro ts
  induction ts with
  | nil => intro n h _ hq _; exact live_frame h rfl rfl rfl rfl (by simp [NodeSys.drain, hq])
  | cons t ts ih =>
    intro n h hr hq hd
    have step : Live k p0 { n with
        sys := { n.sys with smr := (n.sys.smr.onTrigger t).next,
                            evtQ := n.sys.evtQ ++ (n.sys.smr.onTrigger t).outs.map Out.event, trigQ := ts }
        stQ := n.stQ ++ (n.sys.smr.onTrigger t).outs.filterMap Out.toState } :=
      live_smr (t := t) (q := ts) h rfl (hr t (by simp)) rfl rfl rfl rfl rfl
    simp only [NodeSys.drain] at hd ⊢
    split at hd
    · exact ih _ step (fun t' h' => hr t' (List.mem_cons_of_mem _ h')) hq hd
    · exact ih _ step (fun t' h' => hr t' (List.mem_cons_of_mem _ h')) hq hd
    · simp at hd
    · simp at hd

/-- Choke certificates of another height are ignored. -/
theorem drain_idle : ∀ (cs ts : List SMRTrigger) (n : NodeSys T),
    (∀ t ∈ cs, t.triggerType = .continueRound ∧ t.height ≠ n.sys.smr.height) →
    (n.drain (cs ++ ts)).down = false → n.drain (cs ++ ts) = n.drain ts := by
  intro cs
  induction cs with
  | nil => intro ts n _ _; rfl
  | cons t cs ih =>
    intro ts n hc hd
    obtain ⟨h1, h2⟩ := hc t (by simp)
    have hq : ∃ res, n.sys.smr.onTrigger t = ⟨n.sys.smr, [], res⟩ := by
      have := smr_case n.sys.smr t
      generalize n.sys.smr.onTrigger t = o at *
      cases this with
      | quiet res => exact ⟨res, rfl⟩
      | cont _ _ hh => exact absurd hh h2
      | _ => simp_all
    obtain ⟨res, hq⟩ := hq
    have same : ({ n with sys := { n.sys with smr := n.sys.smr, evtQ := n.sys.evtQ ++ ([] : List Out).map Out.event },
                          stQ := n.stQ ++ ([] : List Out).filterMap Out.toState } : NodeSys T) = n := by
      simp
    simp only [List.cons_append, NodeSys.drain, hq] at hd ⊢
    rw [same] at hd ⊢
    cases res with
    | ok => exact ih ts n (fun t' h' => hc t' (List.mem_cons_of_mem _ h')) hd
    | err x => exact ih ts n (fun t' h' => hc t' (List.mem_cons_of_mem _ h')) hd
    | ended => simp at hd
    | panic => simp at hd

/-- The record is taken over by the machine. -/
theorem drain_wal (n : NodeSys T) (b : SMRBase) (hb : b.step ≠ .commit) :
    ∃ evt, n.drain [walTrig b] =
      { n with sys := { n.sys with smr := (n.sys.smr.handleWal b).next, evtQ := evt } } := by
  have h : n.sys.smr.onTrigger (walTrig b) = n.sys.smr.handleWal b := rfl
  obtain ⟨e, he⟩ : ∃ e, n.sys.smr.handleWal b = ⟨(n.sys.smr.handleWal b).next, [.timerOnly e], .ok⟩ := by
    unfold Smr.handleWal Smr.timerEventAfterWal
    cases hs : b.step <;> simp_all
  refine ⟨n.sys.evtQ ++ [e], ?_⟩
  simp only [NodeSys.drain, h]
  rw [he]
  simp [Out.event, Out.toState]

/-! ## A start -/

/-- What is known when a node starts, about the votes `V` it released before and the position `p0`. -/
def StartKnown (e : Env T) (listed : Bool) (h0 : Nat) (p0 : Pos) (V : List SignedVote) : Prop :=
  (listed = false ∧ p0.height ≤ h0 ∧ ∀ v ∈ V, v.vote.height ≤ h0) ∨
  (listed = true ∧ e.walLoad = some none ∧ V = [] ∧ Pos.le p0 ⟨h0, 0, 0⟩) ∨
  (listed = true ∧ ∃ (w : WalInfo T) (b : Bytes), e.walLoad = some (some b) ∧ decWalInfo b = .ok w ∧ w.height ≠ 0 ∧
    Pos.le p0 (recPos w) ∧ ∀ v ∈ V, Pos.le (votePos v) (recPos w))

theorem trigsOf_append (l l' : List (Effect T)) : trigsOf (l ++ l') = trigsOf l ++ trigsOf l' := by simp [trigsOf]

/-- The node after a start, without crash. -/
def NodeSys.started (addr : Address) (p : StartParams) (log : List (Effect T)) (w : World T) : NodeSys T :=
  NodeSys.drain { (NodeSys.fresh addr p log).absorb w.log with
    sys := { (NodeSys.fresh addr p log : NodeSys T).sys with trigQ := [] }, st := w.st, down := false } (trigsOf w.log)

theorem start_act {addr : Address} {n n' : NodeSys T} {p : StartParams} {e : Env T} {cut : Option Nat}
    (h : n.act addr (.start p e cut) = some n') :
    n.down = true ∧
    ((n'.down = true ∧ n'.log = n.log ++ cutTo cut (runArm .start e ⟨State.new addr p.initHeight p.interval p.list, []⟩).2.log) ∨
      (n'.down = false ∧ cut = none ∧ n'.log = n.log ++ (runArm .start e ⟨State.new addr p.initHeight p.interval p.list, []⟩).2.log ∧
        n' = NodeSys.started addr p n.log (runArm .start e ⟨State.new addr p.initHeight p.interval p.list, []⟩).2)) := by
  simp only [NodeSys.act] at h
  split at h
  · rename_i hd
    refine ⟨hd, ?_⟩
    split at h
    · rename_i hd1
      left
      cases h
      exact ⟨hd1, rfl⟩
    · rename_i hd1
      have hd1 := (Bool.not_eq_true _).mp hd1
      obtain ⟨rfl, hr⟩ := took_up hd1
      have key : n' = NodeSys.started addr p n.log (runArm .start e ⟨State.new addr p.initHeight p.interval p.list, []⟩).2 := by
        cases h
        have hr' : (runArm .start e ⟨(NodeSys.fresh addr p n.log).st, []⟩).1 = .ok true := hr
        unfold NodeSys.started NodeSys.took
        rw [hr']
        rfl
      have hl : n'.log = n.log ++ (runArm .start e ⟨State.new addr p.initHeight p.interval p.list, []⟩).2.log := by
        rw [key]; unfold NodeSys.started; rw [drain_log]; rfl
      by_cases hdn : n'.down = true
      · exact .inl ⟨hdn, by simpa [cutTo] using hl⟩
      · exact .inr ⟨(Bool.not_eq_true _).mp hdn, rfl, hl, key⟩
  · cases h

/-- Votes are below a record at its position. -/
theorem le_two {v : SignedVote} {w : WalInfo T} (h : Pos.le (votePos v) (recPos w)) :
    Pos.le (votePos v) ⟨w.height, w.round, 2⟩ := by
  simp only [votePos, recPos, Pos.le] at h ⊢
  have : v.vote.voteType.toStep.toNat ≤ 2 := by cases v.vote.voteType <;> simp [VoteType.toStep]
  omega

theorem restored_pos (s : State T) (w : WalInfo T) (p : Address) :
    (s.restored w p).height = w.height ∧ (s.restored w p).round = w.round ∧
    (s.restored w p).consensusPower = s.consensusPower ∧ (s.restored w p).address = s.address := by
  unfold State.restored
  split <;> simp

theorem start_live {k : Nat} {p0 : Pos} {addr : Address} {p : StartParams} {log : List (Effect T)} {e : Env T} {w : World T}
    (hk : k ≤ log.length)
    (hkn : StartKnown e (p.list.map Node.address |>.contains addr) p.initHeight p0 (votesOf (log.drop k)))
    (hb : ∀ v ∈ votesOf (log.drop k), Pos.lt p0 (votePos v))
    (o : StartOut e (State.new addr p.initHeight p.interval p.list) w)
    (hd : (NodeSys.started addr p log w).down = false) :
    Live k p0 (NodeSys.started addr p log w) := by
  generalize hS : State.new addr p.initHeight p.interval p.list = S at *
  have hpow : S.consensusPower = (p.list.map Node.address |>.contains addr) := by
    rw [← hS]
    have := update_contains p.list addr
    simp only [State.new]
    rw [Bool.eq_iff_iff, this, List.contains_iff_mem]
  have hSh : S.height = p.initHeight := by rw [← hS]; rfl
  have hSr : S.round = 0 := by rw [← hS]; rfl
  rw [← hpow] at hkn
  -- a node whose machine has not been told anything
  have quiet : ∀ (s : State T) (l : List (Effect T)) (ts : List SMRTrigger), votesOf l = [] → p0.height ≤ s.height →
      (∀ v ∈ votesOf (log.drop k), v.vote.height ≤ s.height) →
      (s.consensusPower = true → ∀ v ∈ votesOf (log.drop k), Pos.le (votePos v) ⟨s.height, s.round, 2⟩) →
      (s.consensusPower = true → s.height = 0 → s.round = 0 ∧ Pos.le p0 ⟨0, 0, 0⟩ ∧ votesOf (log.drop k) = []) →
      (∀ t ∈ ts, NotWal t ∧ ∀ st, t.triggerType ≠ .newHeight st) →
      ∀ n' : NodeSys T, n'.log = log ++ l → n'.st = s → n'.sys.smr = Smr.init → n'.stQ = [] → n'.sys.trigQ = ts →
        Live k p0 n' := by
    intro s l ts hl g1 g2 g3 g4 g5 n' e1 e2 e3 e4 e5
    have hv : votesFrom k n' = votesOf (log.drop k) := by
      unfold votesFrom; rw [e1, List.drop_append_of_le_length hk, votesOf_append, hl, List.append_nil]
    refine ⟨by rw [e1, List.length_append]; omega, by rw [e2]; exact g1, by rw [hv]; exact hb, by rw [hv, e2]; exact g2,
      by rw [hv, e2]; exact g3, by rw [e3]; exact Nat.zero_le _, by rw [e4]; simp, ?_, ?_⟩
    · intro t ht; rw [e5] at ht; exact ⟨(g5 t ht).1, fun st hst => absurd hst ((g5 t ht).2 st)⟩
    · rw [e2, e3, e4, hv]
      intro hp hh
      obtain ⟨r0, r1, r2⟩ := g4 hp hh.symm
      rw [r2, r0, ← hh]
      exact ⟨⟨0, 0, 0⟩, r1, by simp, by simp [Chain, Smr.init, Pos.le, pos, INIT_HEIGHT, INIT_ROUND]⟩
  -- a machine that has taken over a position
  have resumed : ∀ (s : State T) (l : List (Effect T)) (b : SMRBase), votesOf l = [] → s.height = b.height → s.round = b.round →
      (∀ v ∈ votesOf (log.drop k), Pos.le (votePos v) ⟨b.height, b.round, b.step.toNat⟩) →
      Pos.le p0 ⟨b.height, b.round, b.step.toNat⟩ →
      ∀ n' : NodeSys T, n'.log = log ++ l → n'.st = s → n'.sys.smr = (Smr.init.handleWal b).next → n'.stQ = [] →
        n'.sys.trigQ = [] → Live k p0 n' := by
    intro s l b hl g1 g2 g3 g4 n' e1 e2 e3 e4 e5
    have hv : votesFrom k n' = votesOf (log.drop k) := by
      unfold votesFrom; rw [e1, List.drop_append_of_le_length hk, votesOf_append, hl, List.append_nil]
    have hm : (Smr.init.handleWal b).next.height = b.height ∧ (Smr.init.handleWal b).next.round = b.round ∧
        (Smr.init.handleWal b).next.step = b.step := by
      unfold Smr.handleWal; dsimp only; split <;> exact ⟨rfl, rfl, rfl⟩
    obtain ⟨m1, m2, m3⟩ := hm
    have hpm : pos (Smr.init.handleWal b).next = ⟨b.height, b.round, b.step.toNat⟩ := by simp [pos, m1, m2, m3]
    refine ⟨by rw [e1, List.length_append]; omega, ?_, by rw [hv]; exact hb, ?_, ?_, by rw [e3, e2, m1, g1],
      by rw [e4]; simp, by rw [e5]; simp, ?_⟩
    · rw [e2, g1]; simp only [Pos.le] at g4; omega
    · rw [hv, e2, g1]; intro v hv'; have := g3 v hv'; simp only [votePos, Pos.le] at this; omega
    · rw [hv, e2, g1, g2]; intro _ v hv'
      have := g3 v hv'
      have h2 : v.vote.voteType.toStep.toNat ≤ 2 := by cases v.vote.voteType <;> simp [VoteType.toStep]
      simp only [votePos, Pos.le] at this ⊢; omega
    · rw [hv, e2, e3, e4, g1, g2]
      intro _ _
      refine ⟨_, g4, g3, ?_⟩
      simp only [Chain, hpm, m2]
      exact ⟨Pos.le_refl _, trivial⟩
  -- what is known about a record
  have known : ∀ (w : WalInfo T) b, S.consensusPower = true → e.walLoad = some (some b) → decWalInfo b = .ok w →
      w.height ≠ 0 ∧ Pos.le p0 (recPos w) ∧ ∀ v ∈ votesOf (log.drop k), Pos.le (votePos v) (recPos w) := by
    intro w b hp hl hw
    rcases hkn with ⟨h, _⟩ | ⟨_, h, _⟩ | ⟨_, w', b', h1, h2, h3, h4, h5⟩
    · rw [hp] at h; cases h
    · rw [hl] at h; cases h
    · rw [hl] at h1; cases h1; rw [hw] at h2; cases h2; exact ⟨h3, h4, h5⟩
  cases o with
  | idle hw h =>
    subst hw
    refine quiet S [] [] rfl ?_ ?_ ?_ ?_ (by simp) _ (by unfold NodeSys.started; rw [drain_log]; rfl)
      (by unfold NodeSys.started; rw [drain_st]) rfl rfl rfl
    · rcases hkn with ⟨_, h1, h2⟩ | ⟨_, h1, h2, h3⟩ | ⟨hp, w', b', h1, h2, h3, h4, h5⟩
      · omega
      · simp only [Pos.le] at h3; omega
      · rcases h hp with h | h
        · rcases h with h | ⟨b, x, h, h'⟩
          · rw [h1] at h; cases h
          · rw [h1] at h; cases h; rw [h2] at h'; cases h'
        · rw [h1] at h; cases h.1
    · rcases hkn with ⟨_, h1, h2⟩ | ⟨_, h1, h2, h3⟩ | ⟨hp, w', b', h1, h2, h3, h4, h5⟩
      · rw [hSh]; exact h2
      · rw [h2]; simp
      · rcases h hp with h | h
        · rcases h with h | ⟨b, x, h, h'⟩
          · rw [h1] at h; cases h
          · rw [h1] at h; cases h; rw [h2] at h'; cases h'
        · rw [h1] at h; cases h.1
    · intro hp
      rcases hkn with ⟨h1, _⟩ | ⟨_, h1, h2, h3⟩ | ⟨hp, w', b', h1, h2, h3, h4, h5⟩
      · rw [hp] at h1; cases h1
      · rw [h2]; simp
      · rcases h hp with h | h
        · rcases h with h | ⟨b, x, h, h'⟩
          · rw [h1] at h; cases h
          · rw [h1] at h; cases h; rw [h2] at h'; cases h'
        · rw [h1] at h; cases h.1
    · intro hp hh
      rcases hkn with ⟨h1, _⟩ | ⟨_, h1, h2, h3⟩ | ⟨hp, w', b', h1, h2, h3, h4, h5⟩
      · rw [hp] at h1; cases h1
      · exact ⟨hSr, by rw [← hSh, hh] at h3; exact h3, h2⟩
      · rcases h hp with h | h
        · rcases h with h | ⟨b, x, h, h'⟩
          · rw [h1] at h; cases h
          · rw [h1] at h; cases h; rw [h2] at h'; cases h'
        · rw [h1] at h; cases h.1
  | fresh hp hl hh hw =>
    subst hw
    rcases hkn with ⟨h1, _⟩ | ⟨_, h1, h2, h3⟩ | ⟨hp, w', b', h1, _⟩
    · rw [hp] at h1; cases h1
    · obtain ⟨evt, hdr⟩ := drain_wal ({ (NodeSys.fresh addr p log).absorb
          [.trigger (walTrig { height := S.height, round := S.round, step := .propose, polc := none })] with
        sys := { (NodeSys.fresh addr p log : NodeSys T).sys with trigQ := [] }, st := S, down := false } : NodeSys T)
        { height := S.height, round := S.round, step := .propose, polc := none } (by simp)
      have : NodeSys.started addr p log ⟨S, [.trigger (walTrig { height := S.height, round := S.round, step := .propose, polc := none })]⟩ = _ := hdr
      rw [this]
      refine resumed S [.trigger (walTrig _)] { height := S.height, round := S.round, step := .propose, polc := none } rfl rfl rfl ?_ ?_ _ rfl rfl rfl rfl rfl
      · rw [h2]; simp
      · rw [hSh, hSr]; exact h3
    · rw [hl] at h1; cases h1
  | noLeader b rec x hp hl hdec hx hw =>
    subst hw
    obtain ⟨h1, h2, h3⟩ := known rec b hp hl hdec
    refine quiet { S with height := rec.height, round := rec.round } [] [] rfl ?_ ?_ (fun _ v hv => le_two (h3 v hv)) (fun _ h => absurd h h1) (by simp) _ (by unfold NodeSys.started; rw [drain_log]; rfl)
      (by unfold NodeSys.started; rw [drain_st]) rfl rfl rfl
    · simp only [Pos.le, recPos] at h2; dsimp only; omega
    · intro v hv; have := h3 v hv; simp only [Pos.le, votePos, recPos] at this; dsimp only; omega
  | noLock b rec pr hp hl hdec hx hst hlk hw =>
    subst hw
    obtain ⟨h1, h2, h3⟩ := known rec b hp hl hdec
    obtain ⟨r1, r2, r3, r4⟩ := restored_pos S rec pr
    refine quiet (S.restored rec pr) [] [] rfl ?_ ?_ (fun _ v hv => by rw [r1, r2]; exact le_two (h3 v hv)) (fun _ h => absurd (r1.symm.trans h) h1) (by simp) _ (by unfold NodeSys.started; rw [drain_log]; rfl)
      (by unfold NodeSys.started; rw [drain_st]) rfl rfl rfl
    · simp only [Pos.le, recPos] at h2; omega
    · intro v hv; have := h3 v hv; simp only [Pos.le, votePos, recPos] at this; omega
  | commit b rec pr lock hp hl hdec hx hst hlk o =>
    obtain ⟨h1, h2, h3⟩ := known rec b hp hl hdec
    obtain ⟨r1, r2, r3, r4⟩ := restored_pos S rec pr
    -- the node just before handle_commit
    have l0 : Live k p0 { (NodeSys.fresh addr p log : NodeSys T) with st := S.restored rec pr } := by
      refine quiet (S.restored rec pr) [] [] rfl ?_ ?_ (fun _ v hv => by rw [r1, r2]; exact le_two (h3 v hv)) (fun _ h => absurd (r1.symm.trans h) h1) (by simp) _ (by simp [NodeSys.fresh])
        rfl rfl rfl rfl
      · simp only [Pos.le, recPos] at h2; omega
      · intro v hv; have := h3 v hv; simp only [Pos.le, votePos, recPos] at this; omega
    have same : ∀ w' : World T, SamePos (S.restored rec pr) w'.st → w'.st.round = (S.restored rec pr).round → votesOf w'.log = [] →
        (∀ t, .trigger t ∉ w'.log) → (NodeSys.started addr p log w').down = false → Live k p0 (NodeSys.started addr p log w') := by
      intro w' hs hr hvo hno hd'
      have hts : trigsOf w'.log = [] := List.eq_nil_iff_forall_not_mem.2 fun t ht => hno t (mem_trigsOf.1 ht)
      have m0 : Moves e w'.st ⟨0, none, none, []⟩ ⟨w'.st, []⟩ := .stay (Nat.zero_le _)
      have := live_move (n' := { (NodeSys.fresh addr p log).absorb w'.log with
          sys := { (NodeSys.fresh addr p log : NodeSys T).sys with trigQ := [] }, st := w'.st, down := false })
        (ev0 := []) (l0 := w'.log) l0 hs.height hs.power hr hvo hno m0 (by simp [NodeSys.absorb, NodeSys.fresh]) rfl rfl rfl (by simp)
        (by simp [hts, NodeSys.fresh, TimerSys.boot])
      unfold NodeSys.started
      rw [hts]
      exact this
    cases o with
    | none => exact same _ (.refl _) rfl rfl (by simp) hd
    | lost content qc => exact same _ (.refl _) rfl rfl (by simp) hd
    | failed content qc => exact same _ (.refl _) rfl rfl (by simp) hd
    | stuck content qc status x => exact same _ ⟨rfl, rfl, rfl⟩ rfl rfl (by simp) hd
    | done content qc status w2 hb hq hs hc hm =>
      generalize hl0 : [Effect.saveWal (commitRec (S.restored rec pr) qc content) true,
          .commitCall (S.restored rec pr).height (mkCommit (S.restored rec pr) lock.lockVotes.blockHash content qc) (some status)] = l1 at *
      have hts : ∀ t ∈ trigsOf (l1 ++ w2.log), t.round < 2 ^ 64 - 1 := by
        intro t ht
        rw [mem_trigsOf] at ht
        rcases List.mem_append.1 ht with ht | ht
        · rw [← hl0] at ht; simp at ht
        · cases hm with
          | adopt _ _ _ =>
            have : t = stTrigger (.newHeight status.toSMR) [] none INIT_ROUND status.height := by simpa using ht
            rw [this]; simp [stTrigger, INIT_ROUND]
          | _ => simp at ht
      refine drain_live _ _ ?_ hts rfl hd
      refine live_move (s := { S.restored rec pr with authority := Authority.update status.authorityList }) (ev0 := []) (l0 := l1) l0 rfl rfl rfl
        (by rw [← hl0]; rfl) (by rw [← hl0]; simp) hm ?_ rfl rfl rfl (by simp) ?_
      · simp [NodeSys.absorb, NodeSys.fresh]
      · simp [NodeSys.fresh, TimerSys.boot]
  | brake b rec pr hp hl hdec hx hst w1 o hw =>
    obtain ⟨h1, h2, h3⟩ := known rec b hp hl hdec
    obtain ⟨r1, r2, r3, r4⟩ := restored_pos S rec pr
    have hvo : votesOf w1.log = [] := by
      rw [votesOf_obs]
      rcases o.out with ho | ⟨lk, _, ho⟩ <;> rw [ho] <;> rfl
    have hts : ∀ t ∈ trigsOf w1.log, t.triggerType = .continueRound ∧ t.height ≠ 0 := by
      intro t ht
      obtain ⟨a, b⟩ := o.trigs t (mem_trigsOf.1 ht)
      exact ⟨a, by rw [b, r1]; exact h1⟩
    have hph : p0.height ≤ w1.st.height := by
      rw [o.same.height, r1]; simp only [Pos.le, recPos] at h2; omega
    have hVh : ∀ v ∈ votesOf (log.drop k), v.vote.height ≤ w1.st.height := by
      intro v hv; have := h3 v hv; rw [o.same.height, r1]; simp only [Pos.le, votePos, recPos] at this; omega
    rcases hw with rfl | rfl
    · have hdr := drain_idle (trigsOf w.log) [] ({ (NodeSys.fresh addr p log).absorb w.log with
        sys := { (NodeSys.fresh addr p log : NodeSys T).sys with trigQ := [] }, st := w.st, down := false } : NodeSys T)
        hts (by rw [List.append_nil]; exact hd)
      rw [List.append_nil] at hdr
      unfold NodeSys.started
      rw [hdr]
      exact quiet w.st w.log [] hvo hph hVh
        (fun _ v hv => by rw [o.same.height, o.round, r1, r2]; exact le_two (h3 v hv))
        (fun _ h => absurd ((o.same.height.trans r1).symm.trans h) h1) (by simp) _ rfl rfl rfl rfl rfl
    · have hts2 : trigsOf (w1.log ++ [.trigger (walTrig rec.intoSmrBase)]) = trigsOf w1.log ++ [walTrig rec.intoSmrBase] := by
        rw [trigsOf_append]; rfl
      unfold NodeSys.started at hd ⊢
      dsimp only at hd ⊢
      rw [hts2] at hd ⊢
      have hdr := drain_idle _ _ _ hts hd
      rw [hdr]
      obtain ⟨evt, hdw⟩ := drain_wal ({ (NodeSys.fresh addr p log).absorb (w1.log ++ [.trigger (walTrig rec.intoSmrBase)]) with
        sys := { (NodeSys.fresh addr p log : NodeSys T).sys with trigQ := [] }, st := w1.st, down := false } : NodeSys T)
        rec.intoSmrBase (by simp [WalInfo.intoSmrBase, hst])
      rw [hdw]
      refine resumed w1.st (w1.log ++ [.trigger (walTrig rec.intoSmrBase)]) rec.intoSmrBase ?_
        (o.same.height.trans r1) (o.round.trans r2) h3 h2 _ rfl rfl rfl rfl rfl
      rw [votesOf_append, hvo]; rfl
  | resume b rec pr hp hl hdec hx hst hsb hw =>
    subst hw
    obtain ⟨h1, h2, h3⟩ := known rec b hp hl hdec
    obtain ⟨r1, r2, r3, r4⟩ := restored_pos S rec pr
    obtain ⟨evt, hdw⟩ := drain_wal ({ (NodeSys.fresh addr p log).absorb [.trigger (walTrig rec.intoSmrBase)] with
        sys := { (NodeSys.fresh addr p log : NodeSys T).sys with trigQ := [] }, st := S.restored rec pr, down := false } : NodeSys T)
        rec.intoSmrBase (by simp [WalInfo.intoSmrBase, hst])
    have : NodeSys.started addr p log ⟨S.restored rec pr, [.trigger (walTrig rec.intoSmrBase)]⟩ = _ := hdw
    rw [this]
    exact resumed (S.restored rec pr) [.trigger (walTrig rec.intoSmrBase)] rec.intoSmrBase rfl r1 r2 h3 h2 _ rfl rfl rfl rfl rfl

theorem start_good {addr : Address} {p : StartParams} {log : List (Effect T)} {e : Env T} {w : World T} {p0 : Pos}
    (hkn : StartKnown e (p.list.map Node.address |>.contains addr) p.initHeight p0 (votesOf log))
    (hg : Good (obs log))
    (o : StartOut e (State.new addr p.initHeight p.interval p.list) w) : GoodAll (obs log) (obs w.log) := by
  generalize hS : State.new addr p.initHeight p.interval p.list = S at *
  have hpow : S.consensusPower = (p.list.map Node.address |>.contains addr) := by
    rw [← hS]
    have := update_contains p.list addr
    simp only [State.new]
    rw [Bool.eq_iff_iff, this, List.contains_iff_mem]
  rw [← hpow, votesOf_obs] at hkn
  have known : ∀ (w : WalInfo T) b, S.consensusPower = true → e.walLoad = some (some b) → decWalInfo b = .ok w →
      ∀ v ∈ obsVotes (obs log), Pos.le (votePos v) (recPos w) := by
    intro w b hp hl hw
    rcases hkn with ⟨h, _⟩ | ⟨_, h, _⟩ | ⟨_, w', b', h1, h2, h3, h4, h5⟩
    · rw [hp] at h; cases h
    · rw [hl] at h; cases h
    · rw [hl] at h1; cases h1; rw [hw] at h2; cases h2; exact h5
  cases o with
  | idle hw h => subst hw; exact goodAll_nil hg
  | fresh hp hl hh hw => subst hw; exact goodAll_nil hg
  | noLeader b rec x hp hl hdec hx hw => subst hw; exact goodAll_nil hg
  | noLock b rec pr hp hl hdec hx hst hlk hw => subst hw; exact goodAll_nil hg
  | commit b rec pr lock hp hl hdec hx hst hlk o =>
    have h3 := known rec b hp hl hdec
    obtain ⟨r1, r2, r3, r4⟩ := restored_pos S rec pr
    exact commit_good hg (fun v hv => by rw [r1, r2]; exact le_two (h3 v hv)) o
  | brake b rec pr hp hl hdec hx hst w1 o hw =>
    have h3 := known rec b hp hl hdec
    obtain ⟨r1, r2, r3, r4⟩ := restored_pos S rec pr
    have hob : obs w.log = obs w1.log := by
      rcases hw with rfl | rfl
      · rfl
      · dsimp only; rw [obs_append]; simp [obs, obsOf, walTrig, stTrigger, releasedVote]
    rw [hob]
    rcases o.out with ho | ⟨lk, _, ho⟩
    · rw [ho]; exact goodAll_nil hg
    · rw [ho]
      refine goodAll_cons hg (goodAll_nil (good_save hg _ fun v hv => ?_))
      have := h3 v hv
      simp only [votePos, recPos, walRec, hst, r1, r2] at this ⊢
      exact this
  | resume b rec pr hp hl hdec hx hst hsb hw => subst hw; exact goodAll_nil hg

/-! ## Whole lives -/

/-- The invariant of a node's life. -/
structure NodeInv (n : NodeSys T) : Prop where
  good : Good (obs n.log)
  live : n.down = false → Live 0 ⟨0, 0, 0⟩ n

theorem startOk_known {addr : Address} {n : NodeSys T} {p : StartParams} {e : Env T} {cut : Option Nat} (hg : Good (obs n.log))
    (ok : StartOk addr n (.start p e cut)) :
    StartKnown e (p.list.map Node.address |>.contains addr) p.initHeight ⟨0, 0, 0⟩ (votesOf n.log) := by
  have hz : ∀ q : Pos, Pos.le ⟨0, 0, 0⟩ q := by intro q; simp only [Pos.le]; omega
  simp only [StartOk] at ok
  split at ok
  · rename_i hl
    rw [hl]
    right
    unfold lastSaved at ok
    rw [savedOf_obs] at ok
    split at ok
    · rename_i hn
      refine .inl ⟨rfl, ok, ?_, hz _⟩
      rw [votesOf_obs]
      refine List.eq_nil_iff_forall_not_mem.2 fun v hv => ?_
      obtain ⟨w, hw, _⟩ := hg.saved v hv
      rw [hn] at hw; cases hw
    · rename_i w hw
      obtain ⟨h0, b, h1, h2⟩ := ok
      refine .inr ⟨rfl, w, b, h1, h2, h0, hz _, fun v hv => ?_⟩
      rw [votesOf_obs] at hv
      obtain ⟨w', hw', h3⟩ := hg.saved v hv
      rw [hw] at hw'; cases hw'; exact h3
  · rename_i hl
    refine .inl ⟨(Bool.not_eq_true _).mp hl, Nat.zero_le _, fun v hv => ?_⟩
    rw [votesOf_obs] at hv
    obtain ⟨w', hw', h3⟩ := hg.saved v hv
    have := ok w' (by rw [savedOf_obs]; exact List.mem_of_getLast? hw')
    simp only [votePos, recPos, Pos.le] at h3
    omega

theorem good_base {log : List (Effect T)} : ∀ v ∈ votesOf log, Pos.lt ⟨0, 0, 0⟩ (votePos v) := by
  intro v _
  simp only [Pos.lt, votePos]
  have : 1 ≤ v.vote.voteType.toStep.toNat := by cases v.vote.voteType <;> simp [VoteType.toStep]
  omega

/-- Steps of the machine, the timer and the verifications. -/
theorem live_other {k : Nat} {p0 : Pos} {addr : Address} {n n' : NodeSys T} {a : NAct T} (h : Live k p0 n)
    (ok : RoundSmall n a) (ha : n.act addr a = some n') (h1 : ∀ x e c, a ≠ .arm x e c) (h2 : ∀ p e c, a ≠ .start p e c)
    (h3 : a ≠ .crash) : n'.log = n.log ∧ n'.down = n.down ∧ n'.st = n.st ∧ Live k p0 n' := by
  cases a with
  | start p e c => exact absurd rfl (h2 p e c)
  | crash => exact absurd rfl h3
  | arm x e c => exact absurd rfl (h1 x e c)
  | verifyDone c i =>
    simp only [NodeSys.act] at ha
    split at ha
    · cases ha
    · split at ha
      · cases ha
      · cases ha; exact ⟨rfl, rfl, rfl, live_frame h rfl rfl rfl rfl (fun t ht => .inl ht)⟩
  | checkDone i okb =>
    simp only [NodeSys.act] at ha
    split at ha
    · cases ha
    · split at ha
      · cases ha
      · cases ha; exact ⟨rfl, rfl, rfl, live_frame h rfl rfl rfl rfl (fun t ht => .inl ht)⟩
  | smr =>
    simp only [NodeSys.act] at ha
    split at ha
    · cases ha
    · split at ha
      · cases ha
      · rename_i t q hq
        split at ha
        · cases ha
        · rename_i sys hs
          cases ha
          simp only [TimerSys.act, hq] at hs
          refine ⟨rfl, rfl, rfl, ?_⟩
          split at hs
          · cases hs; exact live_smr h hq (ok t q hq) rfl rfl rfl rfl rfl
          · cases hs; exact live_smr h hq (ok t q hq) rfl rfl rfl rfl rfl
          · cases hs
          · cases hs
  | set =>
    simp only [NodeSys.act] at ha
    split at ha
    · cases ha
    · obtain ⟨sys, hs, rfl⟩ := Option.map_eq_some_iff.1 ha
      refine ⟨rfl, rfl, rfl, ?_⟩
      simp only [TimerSys.act] at hs
      split at hs
      · cases hs
      · cases hs
      · cases hs; exact live_frame h rfl rfl rfl rfl (fun t ht => .inl ht)
  | expire i =>
    simp only [NodeSys.act] at ha
    split at ha
    · cases ha
    · obtain ⟨sys, hs, rfl⟩ := Option.map_eq_some_iff.1 ha
      refine ⟨rfl, rfl, rfl, ?_⟩
      simp only [TimerSys.act] at hs
      split at hs
      · cases hs
      · cases hs; exact live_frame h rfl rfl rfl rfl (fun t ht => .inl ht)
  | fire i =>
    simp only [NodeSys.act] at ha
    split at ha
    · cases ha
    · obtain ⟨sys, hs, rfl⟩ := Option.map_eq_some_iff.1 ha
      refine ⟨rfl, rfl, rfl, ?_⟩
      simp only [TimerSys.act] at hs
      split at hs
      · cases hs
      · cases hs
        refine live_frame h rfl rfl rfl rfl (fun t ht => ?_)
        simp only [List.mem_append, Option.mem_toList] at ht
        rcases ht with ht | ht
        · exact .inl ht
        · exact .inr (timer_trigger ht)

theorem node_inv {addr : Address} {n n' : NodeSys T} {a : NAct T} (h : NodeInv n)
    (ok : InSync n a ∧ RoundSmall n a ∧ StartOk addr n a) (ha : n.act addr a = some n') : NodeInv n' := by
  obtain ⟨ok1, ok2, ok3⟩ := ok
  have up : (∀ p e c, a ≠ .start p e c) → a ≠ .crash → n.down = false := by
    intro h1 h2
    cases hd : n.down with
    | false => rfl
    | true =>
      cases a with
      | start p e c => exact absurd rfl (h1 p e c)
      | crash => exact absurd rfl h2
      | _ => simp [NodeSys.act, hd] at ha
  cases a with
  | start p e cut =>
    obtain ⟨hd, hc⟩ := start_act ha
    have hkn := startOk_known h.good ok3
    have hga := start_good hkn h.good (start_out e _)
    rcases hc with ⟨h1, h2⟩ | ⟨h1, h2, h3, h4⟩
    · refine ⟨?_, fun hf => by rw [h1] at hf; cases hf⟩
      obtain ⟨k', hk'⟩ := obs_cut cut (runArm .start e ⟨State.new addr p.initHeight p.interval p.list, []⟩).2.log
      rw [h2, obs_append, hk']
      exact hga k'
    · refine ⟨by rw [h3, obs_append]; exact hga.all, fun hf => ?_⟩
      rw [h4] at hf ⊢
      exact start_live (Nat.zero_le _) hkn good_base (start_out e _) hf
  | crash =>
    simp only [NodeSys.act, Option.some.injEq] at ha
    subst ha
    exact ⟨h.good, by simp⟩
  | arm x e cut =>
    have hd := up (by simp) (by simp)
    simp only [NodeSys.act, hd, Bool.false_eq_true, if_false] at ha
    split at ha
    · cases ha
    · rename_i i n1 ht
      cases ha
      obtain ⟨l1, l2⟩ := live_arm (h.live hd) ok1 ht
      refine ⟨?_, l1⟩
      obtain ⟨k', hk'⟩ := obs_cut cut (runArm i e ⟨n.st, []⟩).2.log
      have : (n1.took cut (runArm i e ⟨n.st, []⟩)).log = n.log ++ cutTo cut (runArm i e ⟨n.st, []⟩).2.log := by
        rw [← (take_spec ht).2.1]; rfl
      rw [this, obs_append, hk']
      exact l2 rfl h.good k'
  | _ =>
    have hd := up (by simp) (by simp)
    obtain ⟨e1, e2, e3, e4⟩ := live_other (h.live hd) ok2 ha (by simp) (by simp) (by simp)
    exact ⟨by rw [e1]; exact h.good, fun _ => e4⟩

theorem nodeInv_new (addr : Address) : NodeInv (NodeSys.new addr : NodeSys T) :=
  ⟨good_nil, by simp [NodeSys.new, NodeSys.fresh]⟩

end Overlord
