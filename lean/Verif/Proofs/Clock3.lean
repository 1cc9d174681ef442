import Verif.Proofs.Clock2

/-! The pace of blocks. -/

set_option linter.unusedSimpArgs false
set_option linter.unusedVariables false
set_option linter.unusedSectionVars false

namespace Overlord.Clk
open TM Spec

variable {T α β γ : Type}

/-- From `w` to `w'` time goes on, and the entries added to the log are `A`. -/
structure Grow [ContentCodec T] [DecidableEq T] (A : Timed T → Prop) (w w' : TWorld T) : Prop where
  now : w.now ≤ w'.now
  begun : w.heightStart ≤ w'.heightStart
  sane : w'.heightStart ≤ w'.now
  log : ∃ new, w'.tlog = w.tlog ++ new ∧ w'.w.log = w.w.log ++ acts new ∧ (∀ x ∈ new, A x) ∧
    (∀ t x, .act t x ∈ new → w.now ≤ t) ∧ (∀ t st x, x ∈ new → HeightStarts t st x → t ≤ w'.heightStart)

/-- Entries that neither start a height nor pause. -/
def Calm1 (x : Timed T) : Prop := ∃ t y, x = .act t y ∧ Low y
/-- Entries that do not pause. -/
def Awake (x : Timed T) : Prop := ∃ t y, x = .act t y

section
variable [ContentCodec T] [DecidableEq T] {A : Timed T → Prop}

theorem acts_append (l l' : List (Timed T)) : acts (l ++ l') = acts l ++ acts l' := by simp [acts]
theorem acts_act (t : Nat) (l : List (Effect T)) : acts (l.map (.act t)) = l := by
  induction l with
  | nil => rfl
  | cons a l ih => simp [acts]

theorem Grow.refl {w : TWorld T} (h : w.heightStart ≤ w.now) : Grow A w w :=
  ⟨Nat.le_refl _, Nat.le_refl _, h, [], by simp, by simp [acts], by simp, by simp, by simp⟩

theorem Grow.trans {w w1 w2 : TWorld T} (h : Grow A w w1) (h' : Grow A w1 w2) : Grow A w w2 := by
  obtain ⟨a1, a2, a3, n, a4, a5, a6, a7, a8⟩ := h
  obtain ⟨b1, b2, b3, n', b4, b5, b6, b7, b8⟩ := h'
  refine ⟨a1.trans b1, a2.trans b2, b3, n ++ n', by rw [b4, a4]; simp, by rw [b5, a5, acts_append]; simp, ?_, ?_, ?_⟩
  · intro x hx
    rcases List.mem_append.1 hx with hx | hx
    exacts [a6 x hx, b6 x hx]
  · intro t x hx
    rcases List.mem_append.1 hx with hx | hx
    exacts [a7 t x hx, a1.trans (b7 t x hx)]
  · intro t st x hx hs
    rcases List.mem_append.1 hx with hx | hx
    exacts [(a8 t st x hx hs).trans b2, b8 t st x hx hs]

theorem Grow.mono {B : Timed T → Prop} {w w' : TWorld T} (h : Grow A w w') (hAB : ∀ x, A x → B x) : Grow B w w' := by
  obtain ⟨a1, a2, a3, n, a4, a5, a6, a7, a8⟩ := h
  exact ⟨a1, a2, a3, n, a4, a5, fun x hx => hAB x (a6 x hx), a7, a8⟩

theorem Calm1.awake (x : Timed T) (h : Calm1 x) : Awake x := by
  obtain ⟨t, y, h, _⟩ := h; exact ⟨t, y, h⟩

/-- `tm` lets time go on in this way. -/
def Steady (A : Timed T → Prop) (tm : TM T α) : Prop := ∀ e w, w.heightStart ≤ w.now → Grow A w (tm e w).2

theorem Steady.pure (a : α) : Steady A (Pure.pure a : TM T α) := fun _ _ h => .refl h

theorem Steady.plain {P : Effect T → Prop} {m : M T α} (h : Ext P m) (hP : ∀ x, P x → Low x) : Steady Calm1 (plain m) := by
  intro e w hw
  obtain ⟨l, h1, h2, h3⟩ := h e w.w
  have hd : (m e w.w).2.log.drop w.w.log.length = l := by rw [h1]; simp
  refine ⟨Nat.le_refl _, Nat.le_refl _, hw, l.map (.act w.now), ?_, ?_, ?_, ?_, ?_⟩
  · show w.tlog ++ _ = _; rw [hd]
  · rw [acts_act]; exact h1
  · intro x hx
    obtain ⟨y, hy, rfl⟩ := List.mem_map.1 hx
    exact ⟨_, _, rfl, hP y (h2 y hy)⟩
  · intro t x hx
    obtain ⟨y, hy, h⟩ := List.mem_map.1 hx
    cases h; exact Nat.le_refl _
  · rintro t st x hx ⟨tr, rfl, ht⟩
    obtain ⟨y, hy, h⟩ := List.mem_map.1 hx
    cases h
    exact absurd ht (hP _ (h2 _ hy) tr st rfl)

theorem Steady.low {m : M T α} (h : Ext Low m) : Steady Calm1 (TM.plain m) := .plain h fun _ h => h

theorem Steady.bind {tm : TM T α} {tf : α → TM T β} (h : Steady A tm) (hf : ∀ a, Steady A (tf a)) : Steady A (tm >>= tf) := by
  intro e w hw
  show Grow A w (TM.bind tm tf e w).2
  unfold TM.bind
  have h := h e w hw
  revert h
  rcases tm e w with ⟨x | a, w'⟩
  · exact id
  · intro h; exact h.trans (hf a e w' h.sane)

theorem Steady.ite {c : Prop} [Decidable c] {a b : TM T α} (h1 : Steady A a) (h2 : Steady A b) : Steady A (if c then a else b) := by
  split
  exacts [h1, h2]

theorem Steady.logged {m : TM T Unit} (h : Steady A m) : Steady A (TM.logged m) := by
  intro e w hw
  unfold TM.logged
  have h := h e w hw
  revert h
  rcases m e w with ⟨x | a, w'⟩
  · cases x <;> exact id
  · exact id

theorem Steady.mono {B : Timed T → Prop} {tm : TM T α} (h : Steady A tm) (hAB : ∀ x, A x → B x) : Steady B tm :=
  fun e w hw => (h e w hw).mono hAB

theorem steady_watch : Steady A (TM.startWatch : TM T Unit) := by
  intro e w hw
  refine ⟨Nat.le_add_right _ _, hw.trans (Nat.le_add_right _ _), Nat.le_refl _, [], ?_, ?_, by simp, by simp, by simp⟩
  · simp [startWatch]
  · simp [startWatch, acts]

/-- The tail of adopting a status, when the clock has just been set. -/
theorem grow_tail (status : Status) (e : Env T) (w : TWorld T) (hw : w.heightStart = w.now) :
    Grow Awake w (TM.plain (adoptTail status) e w).2 := by
  have hx : ∃ l, (adoptTail status e w.w).2.log = w.w.log ++ l := by
    have : wp (adoptTail status) e w.w (fun _ w' => ∃ l, w'.log = w.w.log ++ l) (fun _ w' => ∃ l, w'.log = w.w.log ++ l) := by
      unfold adoptTail
      obtain ⟨s, l0⟩ := w.w
      rcases hps : (s.proposals.flush (status.height - 1)).getHeightProposals e.sh status.height with ⟨_ | ps, pc⟩ <;>
      rcases hvs : (s.votes.flush (status.height - 1)).getHeightVotes e.sh status.height with ⟨_ | ⟨vs, qcs⟩, vc⟩
      · wps [hps, hvs]; exact ⟨_, rfl⟩
      · wps [hps, hvs]
        apply wp_reCheck; apply wp_reCheck
        exact ⟨_, by simp [List.append_assoc]; rfl⟩
      · wps [hps, hvs]
        apply wp_reCheck
        wps [hvs]
        exact ⟨_, by simp [List.append_assoc]; rfl⟩
      · wps [hps, hvs]
        apply wp_reCheck
        wps [hvs]
        apply wp_reCheck; apply wp_reCheck
        exact ⟨_, by simp [List.append_assoc]; rfl⟩
    exact wp_post (P := fun w' => ∃ l, w'.log = w.w.log ++ l) this
  obtain ⟨l, h1⟩ := hx
  have hd : (adoptTail status e w.w).2.log.drop w.w.log.length = l := by rw [h1]; simp
  refine ⟨Nat.le_refl _, Nat.le_refl _, hw.le, l.map (.act w.now), ?_, ?_, ?_, ?_, ?_⟩
  · show w.tlog ++ _ = _; rw [hd]
  · rw [acts_act]; exact h1
  · intro x hx
    obtain ⟨y, hy, rfl⟩ := List.mem_map.1 hx
    exact ⟨_, _, rfl⟩
  · intro t x hx
    obtain ⟨y, hy, h⟩ := List.mem_map.1 hx
    cases h; exact Nat.le_refl _
  · rintro t st x hx ⟨tr, rfl, ht⟩
    obtain ⟨y, hy, h⟩ := List.mem_map.1 hx
    cases h; exact hw.ge

theorem steady_goto (status : Status) : Steady (T := T) Awake (tGotoNewHeight status) := by
  unfold tGotoNewHeight
  have lo : ∀ {α : Type} {m : M T α}, Ext Low m → Steady Awake (TM.plain m) := fun h => (Steady.low h).mono Calm1.awake
  refine .bind (lo .get) fun s => .ite (.pure _) (.bind (lo (.modify fun _ => ⟨rfl, rfl⟩)) fun _ => .ite (.pure _) (.bind (lo (ext_save _ _)) fun _ => ?_))
  intro e w hw
  exact (steady_watch e w hw).trans (grow_tail status e _ rfl)

theorem steady_proposal (sp : SignedProposal T) : Steady Calm1 (tHandleSignedProposal sp) := by
  unfold tHandleSignedProposal
  exact .bind (.low (ext_verifyProposer _ _ _)) fun _ => .bind steady_watch fun _ => .bind (.low (ext_filter sp)) fun b =>
    .ite (.pure _) (.low (ext_take sp))

theorem steady_newRound (r : Nat) (lr : Option Nat) (lp : Option Hash) (f : FromWhere) :
    Steady (T := T) Calm1 (tHandleNewRound r lr lp f) := by
  unfold tHandleNewRound
  refine .bind (.low .get) fun s => ?_
  have rest : Steady (T := T) Calm1
      (do
        plain (M.modify fun s => { s with round := r, isLeader := false })
        if lr.isSome ≠ lp.isSome then plain (M.fail .proposalErr)
        else
          plain (setUpdateFrom f)
          plain (saveWalWithLockRound .propose lr)
          if (← plain isProposer) = false then
            let s ← plain M.get
            match s.proposals.get s.height s.round with
            | .ok sp => tHandleSignedProposal sp
            | .error _ => pure ()
          else plain (proposeTail lr lp)) := by
    refine .bind (.low (.modify fun _ => ⟨rfl, rfl⟩)) fun _ => .ite (.low (.fail _)) (.bind (.low (ext_setFrom f)) fun _ =>
      .bind (.low (ext_saveLR _ _)) fun _ => .bind (.low ext_isProposer) fun b => .ite (.bind (.low .get) fun s => ?_)
        (.low (ext_proposeTail _ _)))
    cases s.proposals.get s.height s.round with
    | ok sp => exact steady_proposal sp
    | error x => exact .pure _
  exact .ite (.bind (.low (ext_report _ _)) fun _ => rest) rest

theorem steady_msg (m : OverlordMsg T) : Steady Awake (tHandleMsg m) := by
  have lo : ∀ {α : Type} {m : M T α}, Ext Low m → Steady Awake (TM.plain m) := fun h => (Steady.low h).mono Calm1.awake
  unfold tHandleMsg
  refine .bind (lo .get) fun s => .ite (.pure _) ?_
  cases m with
  | signedProposal sp => exact .logged ((steady_proposal sp).mono Calm1.awake)
  | aggregatedVote av => exact lo (.logged (ext_aggVote av))
  | signedVote sv => exact lo (.logged (ext_vote sv))
  | signedChoke sc => exact lo (.logged (ext_choke sc))
  | richStatus rs => exact .logged (steady_goto rs)
  | stop => exact .bind (lo (by exts)) fun _ => lo (.modify fun _ => ⟨rfl, rfl⟩)

/-! ## Commits -/

/-- What a commit does, seen with the clock. `b` is the time the clock was set last, `i` the interval in force. -/
structure CommitT (e : Env T) (w w' : TWorld T) : Prop where
  now : w.now ≤ w'.now
  begun : w.heightStart ≤ w'.heightStart
  sane : w'.heightStart ≤ w'.now
  log : ∃ new, w'.tlog = w.tlog ++ new ∧ w'.w.log = w.w.log ++ acts new ∧
    (∀ t x, .act t x ∈ new → w.now ≤ t) ∧
    (∀ t st x, x ∈ new → HeightStarts t st x → t ≤ w'.heightStart ∧
      (LeadsHeight e.mode w'.w.st → w.heightStart + w.w.st.blockInterval ≤ t)) ∧
    (∀ t ms, .sleep t ms ∈ new → w.now ≤ t ∧ 0 < ms ∧ t + ms = w.heightStart + w.w.st.blockInterval ∧
      (∃ h c status, .commitCall h c (some status) ∈ acts new ∧
        (Authority.update status.authorityList).getProposer e.mode status.height INIT_ROUND = .ok w.w.st.address)) ∧
    (new.filter isSleep).length ≤ 1

theorem calm_commit {e : Env T} {w w' : TWorld T} (h : Grow Calm1 w w') : CommitT e w w' := by
  obtain ⟨a1, a2, a3, n, a4, a5, a6, a7, a8⟩ := h
  refine ⟨a1, a2, a3, n, a4, a5, a7, ?_, ?_, ?_⟩
  · rintro t st x hx ⟨tr, rfl, ht⟩
    obtain ⟨_, _, h, hl⟩ := a6 _ hx
    cases h
    exact absurd ht (hl tr st rfl)
  · intro t ms hx
    obtain ⟨_, _, h, hl⟩ := a6 _ hx
    cases h
  · have : (n.filter isSleep) = [] := by
      rw [List.filter_eq_nil_iff]
      intro x hx
      obtain ⟨_, _, rfl, _⟩ := a6 _ hx
      simp [isSleep]
    rw [this]; simp

/-- Before the commit nothing of interest happens. -/
theorem CommitT.after {e : Env T} {w w1 w2 : TWorld T} (h : Grow Calm1 w w1) (hb : w1.heightStart = w.heightStart)
    (hi : w1.w.st.blockInterval = w.w.st.blockInterval) (ha : w1.w.st.address = w.w.st.address) (h' : CommitT e w1 w2) :
    CommitT e w w2 := by
  obtain ⟨a1, a2, a3, n, a4, a5, a6, a7, a8⟩ := h
  obtain ⟨b1, b2, b3, n', b4, b5, b7, b8, b9, b10⟩ := h'
  rw [hb, hi] at b8 b9
  rw [ha] at b9
  refine ⟨a1.trans b1, a2.trans b2, b3, n ++ n', by rw [b4, a4]; simp, by rw [b5, a5, acts_append]; simp, ?_, ?_, ?_, ?_⟩
  · intro t x hx
    rcases List.mem_append.1 hx with hx | hx
    exacts [a7 t x hx, a1.trans (b7 t x hx)]
  · intro t st x hx hs
    rcases List.mem_append.1 hx with hx | hx
    · obtain ⟨tr, rfl, ht⟩ := hs
      obtain ⟨_, _, h, hl⟩ := a6 _ hx
      cases h
      exact absurd ht (hl tr st rfl)
    · exact b8 t st x hx hs
  · intro t ms hx
    rcases List.mem_append.1 hx with hx | hx
    · obtain ⟨_, _, h, hl⟩ := a6 _ hx
      cases h
    · obtain ⟨c1, c2, c3, h, c, st, c4, c5⟩ := b9 t ms hx
      exact ⟨a1.trans c1, c2, c3, h, c, st, by rw [acts_append]; exact List.mem_append_right _ c4, c5⟩
  · have : (n.filter isSleep) = [] := by
      rw [List.filter_eq_nil_iff]
      intro x hx
      obtain ⟨_, _, rfl, _⟩ := a6 _ hx
      simp [isSleep]
    rw [List.filter_append, this]; simpa using b10

/-- What `goto_new_height` leaves when it starts a height. -/
theorem goto_leads {e : Env T} {w : World T} {status : Status}
    (h : ∃ l, (gotoNewHeight status e w).2.log = w.log ++ l ∧ ∃ x ∈ l, ¬ Low x) :
    (gotoNewHeight status e w).2.st.height = status.height ∧
    (gotoNewHeight status e w).2.st.authority = Authority.update status.authorityList ∧
    (gotoNewHeight status e w).2.st.address = w.st.address := by
  revert h
  obtain ⟨s, l0⟩ := w
  have : wp (gotoNewHeight status) e ⟨s, l0⟩
      (fun _ w' => (∃ l, w'.log = l0 ++ l ∧ ∃ x ∈ l, ¬ Low x) →
        w'.st.height = status.height ∧ w'.st.authority = Authority.update status.authorityList ∧ w'.st.address = s.address)
      (fun _ w' => (∃ l, w'.log = l0 ++ l ∧ ∃ x ∈ l, ¬ Low x) →
        w'.st.height = status.height ∧ w'.st.authority = Authority.update status.authorityList ∧ w'.st.address = s.address) := by
    refine wp_gotoNewHeight ?_ ?_ ?_ ?_ ?_
    · rintro _ ⟨l, h, x, hx, hl⟩; simp at h; subst h; simp at hx
    · rintro _ _ ⟨l, h, x, hx, hl⟩; simp at h; subst h; simp at hx
    · rintro _ _ _ ⟨l, h, x, hx, hl⟩; simp at h; subst h; simp at hx
    · rintro b _ _ _ _ ⟨l, h, x, hx, hl⟩
      simp at h; subst h; simp at hx; subst hx
      exact absurd (fun _ _ h => by cases h) hl
    · rintro b _ _ _ _ _
      exact ⟨rfl, rfl, rfl⟩
  exact wp_post (P := fun w' => (∃ l, w'.log = l0 ++ l ∧ ∃ x ∈ l, ¬ Low x) →
        w'.st.height = status.height ∧ w'.st.authority = Authority.update status.authorityList ∧ w'.st.address = s.address) this

end
end Overlord.Clk
