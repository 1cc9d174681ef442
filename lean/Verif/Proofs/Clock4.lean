import Verif.Proofs.Clock3

/-! The pace of blocks, continued: commits, starts, histories. -/

set_option linter.unusedSimpArgs false
set_option linter.unusedVariables false
set_option linter.unusedSectionVars false

namespace Overlord.Clk
open TM Spec

variable {T α β γ : Type} [ContentCodec T] [DecidableEq T]

theorem tbind_eq (tm : TM T α) (tf : α → TM T β) (e : Env T) (w : TWorld T) :
    ((tm >>= tf) e w).2 = (match (tm e w).1 with
      | .ok a => (tf a e (tm e w).2).2
      | .error _ => (tm e w).2) := by
  show (TM.bind tm tf e w).2 = _
  unfold TM.bind
  rcases tm e w with ⟨x | a, w'⟩ <;> rfl

/-- The part before the answer of `commit()`. -/
theorem head_ok {e : Env T} {w : World T} {hash : Hash} {status : Status} (h : (commitHead hash e w).1 = .ok status) :
    (∃ k c, .commitCall k c (some status) ∈ (commitHead hash e w).2.log.drop w.log.length) ∧
    (commitHead hash e w).2.st.authority = Authority.update status.authorityList ∧
    (commitHead hash e w).2.st.address = w.st.address ∧ (commitHead hash e w).2.st.height = w.st.height := by
  obtain ⟨s, l⟩ := w
  have : wp (commitHead hash) e ⟨s, l⟩ (fun status w' => (∃ k c, .commitCall k c (some status) ∈ w'.log.drop l.length) ∧
      w'.st.authority = Authority.update status.authorityList ∧ w'.st.address = s.address ∧ w'.st.height = s.height) (fun _ _ => True) := by
    unfold commitHead
    wps
    refine ⟨fun content hc => ⟨fun qc hq => ?_, fun _ => trivial⟩, fun _ => trivial⟩
    refine wp_saveWal (fun _ => trivial) (fun _ _ _ => trivial) fun b h1 h2 => ?_
    wps
    refine ⟨fun status hs => ⟨⟨s.height, mkCommit s hash content qc, ?_⟩, trivial, trivial, trivial⟩, fun _ => trivial⟩
    rw [hs, List.append_assoc, List.drop_left]
    exact List.mem_append_right _ (List.mem_singleton.2 rfl)
  exact wp_ok this h

theorem next_ok {e : Env T} {w : World T} {h r : Nat} {b : Bool} (hk : (nextProposer h r e w).1 = .ok b) :
    ∃ p, w.st.authority.getProposer e.mode h r = .ok p ∧ b = decide (w.st.address = p) ∧ (nextProposer h r e w).2 = w := by
  have : wp (nextProposer h r) e w (fun b w' => ∃ p, w.st.authority.getProposer e.mode h r = .ok p ∧ b = decide (w.st.address = p) ∧ w' = w)
      (fun _ _ => True) := by
    unfold nextProposer
    wps
    exact ⟨fun p hp => ⟨p, hp, rfl, trivial⟩, fun _ _ => trivial⟩
  exact wp_ok this hk

/-- `handle_commit` with the clock. -/
theorem commit_t (hash : Hash) (e : Env T) (w : TWorld T) (hw : w.heightStart ≤ w.now) : CommitT e w (tHandleCommit hash e w).2 := by
  unfold tHandleCommit
  rw [tbind_eq]
  have g1 : Grow Calm1 w (plain (commitHead hash) e w).2 := Steady.low (ext_commitHead hash) e w hw
  have hi1 : (plain (commitHead hash) e w).2.w.st.blockInterval = w.w.st.blockInterval := by
    obtain ⟨_, _, _, h, _⟩ := ext_commitHead hash e w.w; exact h
  have hb1 : (plain (commitHead hash) e w).2.heightStart = w.heightStart := rfl
  have hl1 : (plain (commitHead hash) e w).2.tlog = w.tlog ++ ((commitHead hash e w.w).2.log.drop w.w.log.length).map (.act w.now) := rfl
  have key : ∀ status, (commitHead hash e w.w).1 = .ok status → _ := fun status h => head_ok h
  have hr : (plain (commitHead hash) e w).1 = (commitHead hash e w.w).1 := rfl
  have hwd : (plain (commitHead hash) e w).2.w = (commitHead hash e w.w).2 := rfl
  revert g1 hi1 hb1 hl1 hr hwd
  generalize (plain (commitHead hash) e w).1 = r1
  generalize (plain (commitHead hash) e w).2 = w1
  intro g1 hi1 hb1 hl1 hr hwd
  cases r1 with
  | error x => exact calm_commit g1
  | ok status =>
  obtain ⟨⟨k, c, hc⟩, hau, had, hht⟩ := key status hr.symm
  rw [← hwd] at hau had hht
  dsimp only
  -- the clock is read
  rw [tbind_eq]
  show CommitT e w ((TM.watch >>= _) e { w1 with now := w1.now + w1.ahead.headD 0, ahead := w1.ahead.tail }).2
  have g2 : Grow Calm1 w1 { w1 with now := w1.now + w1.ahead.headD 0, ahead := w1.ahead.tail } :=
    ⟨Nat.le_add_right _ _, Nat.le_refl _, g1.sane.trans (Nat.le_add_right _ _), [], by simp, by simp [acts], by simp, by simp, by simp⟩
  generalize hw2 : ({ w1 with now := w1.now + w1.ahead.headD 0, ahead := w1.ahead.tail } : TWorld T) = w2 at g2 ⊢
  have e1 : w2.w = w1.w := by rw [← hw2]
  have e2 : w2.heightStart = w.heightStart := by rw [← hw2]; exact hb1
  have e3 : w2.tlog = w1.tlog := by rw [← hw2]
  have e4 : w1.now + w1.ahead.headD 0 = w2.now := by rw [← hw2]
  rw [e4, tbind_eq]
  show CommitT e w ((plain (nextProposer status.height INIT_ROUND) >>= fun mine => plain M.get >>= fun s =>
    if mine = true ∧ w2.now - w2.heightStart < s.blockInterval then
      sleepFor (s.blockInterval - (w2.now - w2.heightStart)) >>= fun _ => tGotoNewHeight status
    else tGotoNewHeight status) e w2).2
  rw [tbind_eq]
  have g3 : Grow Calm1 w2 (plain (nextProposer status.height INIT_ROUND) e w2).2 := Steady.low (ext_nextProposer _ _) e w2 g2.sane
  have hr3 : (plain (nextProposer status.height INIT_ROUND) e w2).1 = (nextProposer status.height INIT_ROUND e w2.w).1 := rfl
  cases hm : (nextProposer status.height INIT_ROUND e w2.w).1 with
  | error x =>
    rw [hm] at hr3
    rw [hr3]
    exact calm_commit (g1.trans (g2.trans g3))
  | ok mine =>
  obtain ⟨p, hp, hmine, hsame⟩ := next_ok hm
  rw [hm] at hr3
  rw [hr3]
  dsimp only
  have hw3 : (plain (nextProposer status.height INIT_ROUND) e w2).2 = w2 := by
    show ({ w2 with w := (nextProposer status.height INIT_ROUND e w2.w).2, tlog := _ } : TWorld T) = w2
    rw [hsame]
    simp
  rw [hw3]
  rw [tbind_eq]
  show CommitT e w ((if mine = true ∧ w2.now - w2.heightStart < w2.w.st.blockInterval then
      sleepFor (w2.w.st.blockInterval - (w2.now - w2.heightStart)) >>= fun _ => tGotoNewHeight status
    else tGotoNewHeight status) e (plain M.get e w2).2).2
  have hw4 : (plain M.get e w2).2 = w2 := by
    show ({ w2 with w := w2.w, tlog := _ } : TWorld T) = w2
    simp [M.get]
  rw [hw4]
  -- from here on: w2
  have G : Grow Calm1 w w2 := g1.trans g2
  have hint : w2.w.st.blockInterval = w.w.st.blockInterval := by rw [e1]; exact hi1
  have hadr : w2.w.st.address = w.w.st.address := by rw [e1]; exact had
  have haut : w2.w.st.authority = Authority.update status.authorityList := by rw [e1]; exact hau
  have htl : w2.tlog = w.tlog ++ ((commitHead hash e w.w).2.log.drop w.w.log.length).map (.act w.now) := e3.trans hl1
  have hnow : w.heightStart ≤ w2.now := e2 ▸ g2.sane
  obtain ⟨a1, a2, a3, n, a4, a5, a6, a7, a8⟩ := G
  have hn : n = ((commitHead hash e w.w).2.log.drop w.w.log.length).map (.act w.now) := by
    rw [a4] at htl; exact List.append_cancel_left htl
  have hcall : .commitCall k c (some status) ∈ acts n := by rw [hn, acts_act]; exact hc
  have nolow : ∀ t st x, x ∈ n → ¬ HeightStarts t st x := by
    rintro t st x hx ⟨tr, rfl, ht⟩
    obtain ⟨_, _, h, hl⟩ := a6 _ hx
    cases h
    exact hl tr st rfl ht
  have nosleep : (n.filter isSleep) = [] := by
    rw [List.filter_eq_nil_iff]
    intro x hx
    obtain ⟨_, _, rfl, _⟩ := a6 _ hx
    simp [isSleep]
  have leads : ∀ (w3 : TWorld T), w3.w = w2.w → ∀ new, (tGotoNewHeight status e w3).2.w.log = w3.w.log ++ acts new →
      (∃ t st x, x ∈ new ∧ HeightStarts t st x) → LeadsHeight e.mode (tGotoNewHeight status e w3).2.w.st → mine = true := by
    intro w3 h3 new hlog ⟨t, st, x, hx, tr, hxe, htr⟩ hlead
    have er := (erases_goto status e w3).2
    rw [er] at hlog hlead
    obtain ⟨q1, q2, q3⟩ := goto_leads (e := e) (w := w3.w) (status := status) ⟨_, hlog, .trigger tr, by
      unfold acts; exact List.mem_filterMap.2 ⟨x, hx, by rw [hxe]⟩, fun hl => hl tr st rfl htr⟩
    unfold LeadsHeight at hlead
    rw [q1, q2, q3, h3, ← haut, hp] at hlead
    cases hlead
    rw [hmine]; simp
  split
  · -- the node waits
    rename_i hcond
    rw [tbind_eq]
    show CommitT e w (tGotoNewHeight status e { w2 with
        now := w2.now + (w2.w.st.blockInterval - (w2.now - w2.heightStart)) + w2.ahead.headD 0, ahead := w2.ahead.tail,
        tlog := w2.tlog ++ [.sleep w2.now (w2.w.st.blockInterval - (w2.now - w2.heightStart))] }).2
    generalize hw5 : ({ w2 with
        now := w2.now + (w2.w.st.blockInterval - (w2.now - w2.heightStart)) + w2.ahead.headD 0, ahead := w2.ahead.tail,
        tlog := w2.tlog ++ [.sleep w2.now (w2.w.st.blockInterval - (w2.now - w2.heightStart))] } : TWorld T) = w5
    have f1 : w5.w = w2.w := by rw [← hw5]
    have f2 : w5.heightStart = w2.heightStart := by rw [← hw5]
    have f3 : w5.tlog = w2.tlog ++ [.sleep w2.now (w2.w.st.blockInterval - (w2.now - w2.heightStart))] := by rw [← hw5]
    have f4 : w2.now + (w2.w.st.blockInterval - (w2.now - w2.heightStart)) ≤ w5.now := by rw [← hw5]; exact Nat.le_add_right _ _
    have hbig : w.heightStart + w.w.st.blockInterval ≤ w5.now := by
      rw [hint, e2] at f4
      rw [hint, e2] at hcond
      omega
    obtain ⟨b1, b2, b3, n', b4, b5, b6, b7, b8⟩ := steady_goto status e w5 (by rw [f2, e2]; omega)
    have ld := leads w5 f1 n' b5
    generalize (tGotoNewHeight status e w5).2 = w6 at *
    refine ⟨by omega, by rw [f2, e2] at b2; exact b2, b3, n ++ [.sleep w2.now (w2.w.st.blockInterval - (w2.now - w2.heightStart))] ++ n',
      by rw [b4, f3, a4]; simp, by rw [b5, f1, a5]; simp [acts_append, acts], ?_, ?_, ?_, ?_⟩
    · intro t x hx
      simp only [List.mem_append, List.mem_singleton] at hx
      rcases hx with (hx | hx) | hx
      · exact a7 t x hx
      · cases hx
      · have := b7 t x hx; omega
    · intro t st x hx hs
      simp only [List.mem_append, List.mem_singleton] at hx
      rcases hx with (hx | hx) | hx
      · exact absurd hs (nolow t st x hx)
      · obtain ⟨tr, h, _⟩ := hs; rw [hx] at h; cases h
      · refine ⟨b8 t st x hx hs, fun _ => ?_⟩
        obtain ⟨tr, rfl, _⟩ := hs
        have := b7 _ _ hx
        omega
    · intro t ms hx
      simp only [List.mem_append, List.mem_singleton] at hx
      rcases hx with (hx | hx) | hx
      · obtain ⟨_, _, h, _⟩ := a6 _ hx; cases h
      · cases hx
        rw [hint, e2] at hcond ⊢
        refine ⟨by omega, by omega, by omega, k, c, status, ?_, ?_⟩
        · rw [acts_append, acts_append]
          exact List.mem_append_left _ (List.mem_append_left _ hcall)
        · rw [← haut, hp]
          have := hcond.1
          rw [hmine] at this
          rw [← hadr]
          have h := of_decide_eq_true this
          rw [h]
      · obtain ⟨_, _, h⟩ := b6 _ hx; cases h
    · have : (n'.filter isSleep) = [] := by
        rw [List.filter_eq_nil_iff]
        intro x hx
        obtain ⟨_, _, rfl⟩ := b6 _ hx
        simp [isSleep]
      rw [List.filter_append, List.filter_append, nosleep, this]
      exact Nat.le_refl 1
  · -- no need to wait
    rename_i hcond
    obtain ⟨b1, b2, b3, n', b4, b5, b6, b7, b8⟩ := steady_goto status e w2 g2.sane
    have ld := leads w2 rfl n' b5
    generalize (tGotoNewHeight status e w2).2 = w6 at *
    refine ⟨by omega, by rw [e2] at b2; exact b2, b3, n ++ n',
      by rw [b4, a4]; simp, by rw [b5, a5]; simp [acts_append, acts], ?_, ?_, ?_, ?_⟩
    · intro t x hx
      rcases List.mem_append.1 hx with hx | hx
      · exact a7 t x hx
      · have := b7 t x hx; omega
    · intro t st x hx hs
      rcases List.mem_append.1 hx with hx | hx
      · exact absurd hs (nolow t st x hx)
      · refine ⟨b8 t st x hx hs, fun hl => ?_⟩
        have hmi := ld ⟨t, st, x, hx, hs⟩ hl
        obtain ⟨tr, rfl, _⟩ := hs
        have := b7 _ _ hx
        rw [hint, e2] at hcond
        have : ¬ w2.now - w.heightStart < w.w.st.blockInterval := fun h => hcond ⟨hmi, h⟩
        omega
    · intro t ms hx
      rcases List.mem_append.1 hx with hx | hx
      · obtain ⟨_, _, h, _⟩ := a6 _ hx; cases h
      · obtain ⟨_, _, h⟩ := b6 _ hx; cases h
    · have : (n'.filter isSleep) = [] := by
        rw [List.filter_eq_nil_iff]
        intro x hx
        obtain ⟨_, _, rfl⟩ := b6 _ hx
        simp [isSleep]
      rw [List.filter_append, nosleep, this]
      simp

/-- `tm` ends with a commit, or does not start a height. -/
def Commits (tm : TM T α) : Prop := ∀ e w, w.heightStart ≤ w.now → CommitT e w (tm e w).2

theorem Commits.calm {tm : TM T α} (h : Steady Calm1 tm) : Commits tm := fun e w hw => calm_commit (h e w hw)

theorem Commits.bind {m : M T α} {tf : α → TM T β} (h : Ext Low m) (hf : ∀ a, Commits (tf a)) : Commits (plain m >>= tf) := by
  intro e w hw
  rw [tbind_eq]
  have g := Steady.low h e w hw
  obtain ⟨_, _, _, h1, h2⟩ := h e w.w
  split
  · rename_i a _
    exact CommitT.after g rfl h1 h2 (hf a e _ g.sane)
  · exact calm_commit g

theorem Commits.ite {c : Prop} [Decidable c] {a b : TM T α} (h1 : Commits a) (h2 : Commits b) : Commits (if c then a else b) := by
  split
  exacts [h1, h2]

theorem Commits.logged {m : TM T Unit} (h : Commits m) : Commits (TM.logged m) := by
  intro e w hw
  unfold TM.logged
  have h := h e w hw
  revert h
  rcases m e w with ⟨x | a, w'⟩
  · cases x <;> exact id
  · exact id

theorem Commits.then_pure {m : TM T Unit} (h : Commits m) (a : α) : Commits (m >>= fun _ => (pure a : TM T α)) := by
  intro e w hw
  rw [tbind_eq]
  have h := h e w hw
  revert h
  rcases m e w with ⟨x | _, w'⟩ <;> exact id

theorem commits_start : Commits (T := T) tStartWithWal := by
  unfold tStartWithWal
  refine .bind .get fun s => .ite (.calm (.pure _)) (.bind ext_loadWal fun ow => ?_)
  cases ow with
  | none => exact .ite (.calm (.low ext_walLost)) (.calm (.pure _))
  | some w =>
    refine .bind (.modify fun _ => ⟨rfl, rfl⟩) fun _ => .bind ext_isProposer fun l => .bind (.modify fun _ => ⟨rfl, rfl⟩) fun _ => ?_
    have rest : Commits (T := T)
        (if w.step = .commit then
          match w.lock with
          | none => plain (M.fail .loadWalErr)
          | some lock => tHandleCommit lock.lockVotes.blockHash
        else do
          if w.step = .brake then plain (handleBrake w.round (w.lock.map WalLock.lockRound))
          plain (M.emit (.trigger { stTrigger .walInfo [] none w.round w.height with walInfo := some w.intoSmrBase }))) := by
      have em : Ext Low (M.emit (T := T) (.trigger { stTrigger .walInfo [] none w.round w.height with walInfo := some w.intoSmrBase })) := by
        exts
      refine .ite ?_ ?_
      · cases w.lock with
        | none => exact .calm (.low (.fail _))
        | some lock => exact fun e w hw => commit_t _ e w hw
      · exact .ite (.bind (ext_brake _ _) fun _ => .calm (.low em)) (.calm (.low em))
    dsimp only
    cases hl : w.lock with
    | none => simp only [hl] at rest ⊢; exact rest
    | some lock => simp only [hl] at rest ⊢; exact .bind (.modify fun _ => ⟨rfl, rfl⟩) fun _ => rest

/-- The inputs that may make the node commit. -/
def MayCommit (i : Input T) : Prop := i = .start ∨ ∃ hash, i = .event (.commit hash)

theorem commits_arm {i : Input T} (hi : MayCommit i) : Commits (tRunArm i) := by
  unfold tRunArm
  rcases hi with rfl | ⟨hash, rfl⟩
  · exact .then_pure (.logged commits_start) _
  · exact .bind .get fun s => .ite (.calm (.pure _)) (.ite (.calm (.pure _)) (.then_pure (.logged (.logged fun e w hw => commit_t hash e w hw)) _))

theorem ext_raw (m : OverlordMsg T) : Ext Low (runArm (.raw m)) := by
  unfold runArm
  dsimp only
  exts
theorem ext_respArm (r : VerifyResp) : Ext (T := T) Low (runArm (.resp r)) := by
  unfold runArm
  have h := ext_resp (T := T) r
  dsimp only
  exts

theorem awake_arm {i : Input T} (hi : ¬ MayCommit i) : Steady Awake (tRunArm i) := by
  have lo : ∀ {α : Type} {m : M T α}, Ext Low m → Steady Awake (TM.plain m) := fun h => (Steady.low h).mono Calm1.awake
  have thn : ∀ {m : TM T Unit}, Steady Awake m → Steady Awake (m >>= fun _ => (pure true : TM T Bool)) := fun h => .bind h fun _ => .pure _
  unfold tRunArm
  cases i with
  | start => exact absurd (.inl rfl) hi
  | raw m => exact lo (ext_raw m)
  | resp r => exact lo (ext_respArm r)
  | verified m => exact thn (.logged (steady_msg m))
  | event ev =>
    refine .bind (lo .get) fun s => .ite (.pure _) (.ite (.pure _) (thn (.logged ?_)))
    unfold tHandleEvent
    cases ev with
    | commit hash => exact absurd (.inr ⟨hash, rfl⟩) hi
    | newRoundInfo h r lr lp f a b => exact .logged ((steady_newRound r lr lp f).mono Calm1.awake)
    | prevoteVote h r hash lr => exact lo (.logged (ext_voteEvent _ _ _))
    | precommitVote h r hash lr => exact lo (.logged (ext_voteEvent _ _ _))
    | brake h r lr => exact lo (.bind .get fun s => .ite (.pure _) (.logged (ext_brake _ _)))
    | stop => exact lo (.fail _)

/-! ## Histories -/

/-- The interval announced by effects that do not start a height. -/
theorem interval_append (i : Nat) (l l' : List (Effect T)) :
    intervalInForce i (l ++ l') = intervalInForce (intervalInForce i l) l' := by
  induction l generalizing i with
  | nil => rfl
  | cons a l ih => exact ih _

theorem interval_quiet (i : Nat) (l : List (Effect T)) (h : ∀ x ∈ l, announced x = none) : intervalInForce i l = i := by
  induction l generalizing i with
  | nil => rfl
  | cons a l ih =>
    rw [intervalInForce, h a (List.mem_cons_self ..)]
    exact ih _ fun x hx => h x (List.mem_cons_of_mem _ hx)

theorem announced_toTrigger (ty : VoteType) (a : Hash) (b : Option Nat) (c d : Nat) :
    announced (T := T) (.trigger (stTrigger ty.toTrigger a b c d)) = none := by cases ty <;> rfl

theorem interval_micro {e : Env T} {i : Input T} {s s' : State T} {eff : List (Effect T)} (h : Micro e i s eff s') :
    s'.blockInterval = intervalInForce s.blockInterval eff := by
  cases h with
  | adopt st =>
    have hq : ∀ k (l : List (OverlordMsg T)) a, intervalInForce k (l.map fun m => Effect.spawnVerify m a) = k := by
      intro k l a
      apply interval_quiet
      intro x hx
      obtain ⟨m, _, rfl⟩ := List.mem_map.1 hx
      rfl
    rw [List.cons_append, intervalInForce, interval_append, hq]
    rfl
  | enterRound => rw [interval_quiet]; intro x hx; split at hx <;> simp at hx; subst hx; rfl
  | trigQcId r ty qc hq =>
    rw [interval_quiet]; intro x hx; simp at hx; subst hx; exact announced_toTrigger ..
  | trigQcHash h ty qc =>
    rw [interval_quiet]; intro x hx; simp at hx; subst hx; exact announced_toTrigger ..
  | castVote ty hash lr lock sv =>
    rw [interval_quiet]
    intro x hx
    simp only [List.mem_cons, List.not_mem_nil, or_false] at hx
    rcases hx with rfl | rfl
    · rfl
    · split <;> rfl
  | _ => rfl

theorem interval_runs {e : Env T} {i : Input T} {w w' : World T} (h : Runs e i w w') :
    ∃ l, w'.log = w.log ++ l ∧ w'.st.blockInterval = intervalInForce w.st.blockInterval l := by
  induction h with
  | refl => exact ⟨[], by simp, rfl⟩
  | step h hm ih =>
    obtain ⟨l, h1, h2⟩ := ih
    exact ⟨l ++ _, by rw [h1, List.append_assoc], by rw [interval_append, ← h2]; exact interval_micro hm⟩

/-- What holds of every node a history leads to. -/
structure Inv (i t0 : Nat) (n : TWorld T) : Prop where
  sane : n.heightStart ≤ n.now
  begun : t0 ≤ n.heightStart
  log : n.w.log = acts n.tlog
  starts : ∀ t st x, x ∈ n.tlog → HeightStarts t st x → t ≤ n.heightStart
  interval : n.w.st.blockInterval = intervalInForce i n.w.log

theorem interval_arm (i : Input T) (e : Env T) (w : World T) :
    ∃ l, (runArm i e w).2.log = w.log ++ l ∧ (runArm i e w).2.st.blockInterval = intervalInForce w.st.blockInterval l :=
  interval_runs (wp_post (walk_arm (w0 := w) (s := w.st) (l := w.log) .refl))

theorem Inv.step {i t0 : Nat} {n : TWorld T} (h : Inv i t0 n) (k : Tick T) : Inv i t0 (n.step k) := by
  have hw : (n.wait k).heightStart ≤ (n.wait k).now := h.sane.trans (Nat.le_add_right _ _)
  have hint : (n.step k).w.st.blockInterval = intervalInForce i (n.step k).w.log := by
    have er := (erases_arm k.input k.env (n.wait k)).2
    unfold TWorld.step
    rw [er]
    obtain ⟨l, h1, h2⟩ := interval_arm k.input k.env n.w
    show (runArm k.input k.env n.w).2.st.blockInterval = _
    rw [h2, h.interval]
    show _ = intervalInForce i (runArm k.input k.env n.w).2.log
    rw [h1, interval_append]
  by_cases hi : MayCommit k.input
  · obtain ⟨a1, a2, a3, new, a4, a5, a6, a7, _⟩ := commits_arm hi k.env (n.wait k) hw
    refine ⟨a3, h.begun.trans a2, ?_, ?_, hint⟩
    · unfold TWorld.step; rw [a5, a4, acts_append]; exact congrArg (· ++ acts new) h.log
    · intro t st x hx hs
      unfold TWorld.step at hx; rw [a4] at hx
      rcases List.mem_append.1 hx with hx | hx
      · exact (h.starts t st x hx hs).trans a2
      · exact (a7 t st x hx hs).1
  · obtain ⟨a1, a2, a3, new, a4, a5, _, a6, a7⟩ := awake_arm hi k.env (n.wait k) hw
    refine ⟨a3, h.begun.trans a2, ?_, ?_, hint⟩
    · unfold TWorld.step; rw [a5, a4, acts_append]; exact congrArg (· ++ acts new) h.log
    · intro t st x hx hs
      unfold TWorld.step at hx; rw [a4] at hx
      rcases List.mem_append.1 hx with hx | hx
      · exact (h.starts t st x hx hs).trans a2
      · exact a7 t st x hx hs

theorem inv_reach {a : Address} {h0 i t0 : Nat} {l : List Node} {n : TWorld T} (h : ClockReach (TWorld.new a h0 i l t0) n) : Inv i t0 n := by
  induction h with
  | refl => exact ⟨Nat.le_refl _, Nat.le_refl _, rfl, by simp [TWorld.new], rfl⟩
  | step k _ _ ih => exact ih.step k

/-! ## What sets the clock -/

/-- The tail of adopting a status always tells the voting state machine. -/
theorem tail_tells (status : Status) (e : Env T) (w : World T) : ∃ l, (adoptTail status e w).2.log = w.log ++ l ∧
    .trigger (stTrigger (.newHeight status.toSMR) [] none INIT_ROUND status.height) ∈ l := by
  have : wp (adoptTail status) e w
      (fun _ w' => ∃ l, w'.log = w.log ++ l ∧ .trigger (stTrigger (.newHeight status.toSMR) [] none INIT_ROUND status.height) ∈ l)
      (fun _ w' => ∃ l, w'.log = w.log ++ l ∧ .trigger (stTrigger (.newHeight status.toSMR) [] none INIT_ROUND status.height) ∈ l) := by
    unfold adoptTail
    obtain ⟨s, l0⟩ := w
    rcases hps : (s.proposals.flush (status.height - 1)).getHeightProposals e.sh status.height with ⟨_ | ps, pc⟩ <;>
    rcases hvs : (s.votes.flush (status.height - 1)).getHeightVotes e.sh status.height with ⟨_ | ⟨vs, qcs⟩, vc⟩
    · wps [hps, hvs]; exact ⟨_, rfl, by simp⟩
    · wps [hps, hvs]
      apply wp_reCheck; apply wp_reCheck
      exact ⟨_, by rw [List.append_assoc, List.append_assoc], by simp⟩
    · wps [hps, hvs]
      apply wp_reCheck
      wps [hvs]
      exact ⟨_, by rw [List.append_assoc], by simp⟩
    · wps [hps, hvs]
      apply wp_reCheck
      wps [hvs]
      apply wp_reCheck; apply wp_reCheck
      exact ⟨_, by rw [List.append_assoc, List.append_assoc, List.append_assoc], by simp⟩
  exact wp_post (P := fun w' => ∃ l, w'.log = w.log ++ l ∧ _) this

/-- From `w` to `w'` the clock was not set, or a height was started when it was set. -/
def Set1 (w w' : TWorld T) : Prop :=
  w'.heightStart = w.heightStart ∨ ∃ st x, x ∈ w'.tlog ∧ HeightStarts w'.heightStart st x

theorem set_goto (status : Status) (e : Env T) (w : TWorld T) : Set1 w (tGotoNewHeight status e w).2 := by
  unfold tGotoNewHeight
  rw [tbind_eq]
  split
  · rename_i s hs
    by_cases h1 : status.height ≤ s.height
    · rw [if_pos h1]; exact .inl rfl
    · rw [if_neg h1, tbind_eq]
      split
      · by_cases h2 : status.isConsensusNode s.address = false
        · rw [if_pos h2]; exact .inl rfl
        · rw [if_neg h2, tbind_eq]
          split
          · rw [tbind_eq]
            generalize (plain (saveWal (T := T) .propose none) e _).2 = w3
            show Set1 w (plain (adoptTail status) e (startWatch e w3).2).2
            refine .inr ⟨status.toSMR, .act (startWatch e w3).2.now (.trigger (stTrigger (.newHeight status.toSMR) [] none INIT_ROUND status.height)), ?_, _, rfl, rfl⟩
            obtain ⟨l, h3, h4⟩ := tail_tells status e (startWatch e w3).2.w
            show _ ∈ (startWatch e w3).2.tlog ++ ((adoptTail status e (startWatch e w3).2.w).2.log.drop (startWatch e w3).2.w.log.length).map (.act (startWatch e w3).2.now)
            rw [h3, List.drop_left]
            exact List.mem_append_right _ (List.mem_map.2 ⟨_, h4, rfl⟩)
          · exact .inl rfl
      · exact .inl rfl
  · exact .inl rfl

theorem set_proposal (sp : SignedProposal T) (e : Env T) (w : TWorld T) :
    (tHandleSignedProposal sp e w).2.heightStart = w.heightStart ∨
    (w.w.st.authority.contains sp.proposal.proposer = true ∧
      w.w.st.authority.getProposer e.mode sp.proposal.height sp.proposal.round = .ok sp.proposal.proposer) := by
  unfold tHandleSignedProposal
  rw [tbind_eq]
  split
  · rename_i u hu
    right
    have : wp (verifyProposer sp.proposal.height sp.proposal.round sp.proposal.proposer) e w.w
        (fun _ _ => w.w.st.authority.contains sp.proposal.proposer = true ∧
          w.w.st.authority.getProposer e.mode sp.proposal.height sp.proposal.round = .ok sp.proposal.proposer) (fun _ _ => True) :=
      wp_verifyProposer (fun _ => trivial) fun h1 h2 => ⟨h1, h2⟩
    exact wp_ok this hu
  · exact .inl rfl

/-- `tm` sets the clock only when it starts a height. -/
def Sets (tm : TM T α) : Prop := ∀ e w, Set1 w (tm e w).2

theorem Sets.plain (m : M T α) : Sets (TM.plain m) := fun _ _ => .inl rfl
theorem Sets.pure (a : α) : Sets (Pure.pure a : TM T α) := fun _ _ => .inl rfl
/-- Only the last action may set the clock. -/
theorem Sets.bind {tm : TM T α} {tf : α → TM T β} (h : ∀ e w, (tm e w).2.heightStart = w.heightStart) (hf : ∀ a, Sets (tf a)) :
    Sets (tm >>= tf) := by
  intro e w
  rw [tbind_eq]
  split
  · rename_i a _
    have := hf a e (tm e w).2
    unfold Set1 at this ⊢
    rwa [h e w] at this
  · exact .inl (h e w)
theorem Sets.ite {c : Prop} [Decidable c] {a b : TM T α} (h1 : Sets a) (h2 : Sets b) : Sets (if c then a else b) := by
  split
  exacts [h1, h2]
theorem Sets.logged {m : TM T Unit} (h : Sets m) : Sets (TM.logged m) := by
  intro e w
  unfold TM.logged
  have h := h e w
  revert h
  rcases m e w with ⟨x | a, w'⟩
  · cases x <;> exact id
  · exact id
theorem Sets.then_pure {m : TM T Unit} (h : Sets m) (a : α) : Sets (m >>= fun _ => (Pure.pure a : TM T α)) := by
  intro e w
  rw [tbind_eq]
  have h := h e w
  revert h
  rcases m e w with ⟨x | _, w'⟩ <;> exact id

theorem sets_commit (hash : Hash) : Sets (T := T) (tHandleCommit hash) := by
  unfold tHandleCommit
  have p : ∀ {γ : Type} (m : M T γ) e (w : TWorld T), (TM.plain m e w).2.heightStart = w.heightStart := fun _ _ _ => rfl
  refine .bind (p _) fun status => .bind (fun _ _ => rfl) fun now => .bind (fun _ _ => rfl) fun begun => .bind (p _) fun mine =>
    .bind (p _) fun s => .ite (.bind (fun _ _ => rfl) fun _ => set_goto status) (set_goto status)

theorem sets_start : Sets (T := T) tStartWithWal := by
  have p : ∀ {γ : Type} (m : M T γ) e (w : TWorld T), (TM.plain m e w).2.heightStart = w.heightStart := fun _ _ _ => rfl
  unfold tStartWithWal
  refine .bind (p _) fun s => .ite (.pure _) (.bind (p _) fun ow => ?_)
  cases ow with
  | none => exact .ite (.plain _) (.pure _)
  | some w =>
    refine .bind (p _) fun _ => .bind (p _) fun l => .bind (p _) fun _ => ?_
    have rest : Sets (T := T)
        (if w.step = .commit then
          match w.lock with
          | none => plain (M.fail .loadWalErr)
          | some lock => tHandleCommit lock.lockVotes.blockHash
        else do
          if w.step = .brake then plain (handleBrake w.round (w.lock.map WalLock.lockRound))
          plain (M.emit (.trigger { stTrigger .walInfo [] none w.round w.height with walInfo := some w.intoSmrBase }))) := by
      refine .ite ?_ ?_
      · cases w.lock with
        | none => exact .plain _
        | some lock => exact sets_commit _
      · exact .ite (.bind (p _) fun _ => .plain _) (.plain _)
    dsimp only
    cases hl : w.lock with
    | none => simp only [hl] at rest ⊢; exact rest
    | some lock => simp only [hl] at rest ⊢; exact .bind (p _) fun _ => rest

/-- All that sets the clock. -/
theorem set_arm (i : Input T) (e : Env T) (w : TWorld T) :
    Set1 w (tRunArm i e w).2 ∨
    (∃ sp, i = .verified (.signedProposal sp) ∧ w.w.st.authority.contains sp.proposal.proposer = true ∧
      w.w.st.authority.getProposer e.mode sp.proposal.height sp.proposal.round = .ok sp.proposal.proposer) ∨
    (∃ r lr lp f, NewRoundInput i r lr lp f) := by
  have p : ∀ {γ : Type} (m : M T γ) e (w : TWorld T), (TM.plain m e w).2.heightStart = w.heightStart := fun _ _ _ => rfl
  cases i with
  | start => exact .inl (Sets.then_pure (.logged sets_start) _ e w)
  | raw m => exact .inl (.inl rfl)
  | resp r => exact .inl (.inl rfl)
  | event ev =>
    cases ev with
    | newRoundInfo h r lr lp f a b => exact .inr (.inr ⟨r, lr, lp, f, h, a, b, rfl⟩)
    | commit hash =>
      exact .inl ((Sets.bind (p _) fun s => .ite (.pure _) (.ite (.pure _) (.then_pure (.logged (.logged (sets_commit hash))) _))) e w)
    | prevoteVote h r hash lr =>
      exact .inl ((Sets.bind (p _) fun s => .ite (.pure _) (.ite (.pure _) (.then_pure (.logged (.plain _)) _))) e w)
    | precommitVote h r hash lr =>
      exact .inl ((Sets.bind (p _) fun s => .ite (.pure _) (.ite (.pure _) (.then_pure (.logged (.plain _)) _))) e w)
    | brake h r lr =>
      exact .inl ((Sets.bind (p _) fun s => .ite (.pure _) (.ite (.pure _) (.then_pure (.logged (.plain _)) _))) e w)
    | stop =>
      exact .inl ((Sets.bind (p _) fun s => .ite (.pure _) (.ite (.pure _) (.then_pure (.logged (.plain _)) _))) e w)
  | verified m =>
    have other : Sets (tHandleMsg m) → Set1 w (tRunArm (.verified m) e w).2 := fun h => Sets.then_pure (.logged h) _ e w
    cases m with
    | signedProposal sp =>
      have key : (tRunArm (.verified (.signedProposal sp)) e w).2 = w ∨
          (tRunArm (.verified (.signedProposal sp)) e w).2.heightStart = (tHandleSignedProposal sp e w).2.heightStart := by
        show ((TM.logged (tHandleMsg (.signedProposal sp)) >>= fun _ => (Pure.pure true : TM T Bool)) e w).2 = w ∨
          ((TM.logged (tHandleMsg (.signedProposal sp)) >>= fun _ => (Pure.pure true : TM T Bool)) e w).2.heightStart = _
        have l2 : ∀ (m : TM T Unit), ((TM.logged m >>= fun _ => (Pure.pure true : TM T Bool)) e w).2 = (m e w).2 := by
          intro m
          rw [tbind_eq]
          unfold TM.logged
          rcases m e w with ⟨x | a, w'⟩
          · cases x <;> rfl
          · rfl
        have l1 : ∀ (m : TM T Unit) w, (TM.logged m e w).2 = (m e w).2 := by
          intro m w
          unfold TM.logged
          rcases m e w with ⟨x | a, w'⟩
          · cases x <;> rfl
          · rfl
        rw [l2]
        unfold tHandleMsg
        rw [tbind_eq]
        have hg : (plain M.get e w) = (.ok w.w.st, w) := by
          show (_, ({ w with w := w.w, tlog := _ } : TWorld T)) = (_, w)
          simp [M.get]
        rw [hg]
        dsimp only
        split
        · exact .inl rfl
        · right; rw [l1]
      rcases key with h | h
      · left; left; rw [h]
      · rcases set_proposal sp e w with h' | h'
        · left; left; rw [h, h']
        · exact .inr (.inl ⟨sp, rfl, h'⟩)
    | aggregatedVote av => exact .inl (other (.bind (p _) fun s => .ite (.pure _) (.plain _)))
    | signedVote sv => exact .inl (other (.bind (p _) fun s => .ite (.pure _) (.plain _)))
    | signedChoke sc => exact .inl (other (.bind (p _) fun s => .ite (.pure _) (.plain _)))
    | richStatus rs => exact .inl (other (.bind (p _) fun s => .ite (.pure _) (.logged (set_goto rs))))
    | stop => exact .inl (other (.bind (p _) fun s => .ite (.pure _) (.bind (p _) fun _ => .plain _)))

end Overlord.Clk
