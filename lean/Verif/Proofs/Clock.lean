import Verif.Model.Clock
import Verif.Proofs.Outcomes

/-! The clock does not change what the State does. -/

set_option linter.unusedSimpArgs false
set_option linter.unusedVariables false
set_option linter.unusedSectionVars false

namespace Overlord.Clk
open TM Spec

variable {T α β γ : Type}

/-! ## The monad laws needed -/

theorem m_bind_assoc (m : M T α) (f : α → M T β) (g : β → M T γ) :
    ((m >>= f) >>= g) = (m >>= fun a => f a >>= g) := by
  funext e w
  show M.bind (M.bind m f) g e w = M.bind m (fun a => M.bind (f a) g) e w
  unfold M.bind
  rcases m e w with ⟨_ | a, w'⟩ <;> rfl

theorem m_pure_bind (a : α) (f : α → M T β) : ((pure a : M T α) >>= f) = f a := rfl

theorem m_bind_pure (m : M T α) : (m >>= fun a => (pure a : M T α)) = m := by
  funext e w
  show M.bind m _ e w = m e w
  unfold M.bind
  rcases m e w with ⟨_ | a, w'⟩ <;> rfl

/-! ## Erasure -/

/-- Without its clock, `tm` is `m`. -/
def Erases (tm : TM T α) (m : M T α) : Prop :=
  ∀ e w, (tm e w).1 = (m e w.w).1 ∧ (tm e w).2.w = (m e w.w).2

theorem Erases.plain (m : M T α) : Erases (plain m) m := fun _ _ => ⟨rfl, rfl⟩
theorem Erases.pure (a : α) : Erases (Pure.pure a : TM T α) (Pure.pure a) := fun _ _ => ⟨rfl, rfl⟩

theorem Erases.bind {tm : TM T α} {m : M T α} {tf : α → TM T β} {f : α → M T β} (h : Erases tm m)
    (hf : ∀ a, Erases (tf a) (f a)) : Erases (tm >>= tf) (m >>= f) := by
  intro e w
  show (TM.bind tm tf e w).1 = (M.bind m f e w.w).1 ∧ (TM.bind tm tf e w).2.w = (M.bind m f e w.w).2
  unfold TM.bind M.bind
  have h := h e w
  revert h
  rcases tm e w with ⟨_ | a, w'⟩ <;> rcases m e w.w with ⟨_ | a', w''⟩ <;> rintro ⟨h1, h2⟩ <;> cases h1
  · exact ⟨rfl, h2⟩
  · dsimp only at h2; subst h2; exact hf a e w'

/-- An action on the clock alone. -/
theorem Erases.skip {tm : TM T α} {tf : α → TM T β} {m : M T β} (h : ∀ e w, ∃ a, (tm e w).1 = .ok a ∧ (tm e w).2.w = w.w)
    (hf : ∀ a, Erases (tf a) m) : Erases (tm >>= tf) m := by
  intro e w
  show (TM.bind tm tf e w).1 = _ ∧ (TM.bind tm tf e w).2.w = _
  unfold TM.bind
  obtain ⟨a, h1, h2⟩ := h e w
  revert h1 h2
  rcases tm e w with ⟨x, w'⟩
  rintro h1 h2
  dsimp only at h1 h2
  subst h1
  have := hf a e w'
  rw [h2] at this
  exact this

theorem Erases.ite {c : Prop} [Decidable c] {ta tb : TM T α} {a b : M T α} (h1 : c → Erases ta a) (h2 : ¬ c → Erases tb b) :
    Erases (if c then ta else tb) (if c then a else b) := by
  by_cases h : c
  · simp only [h, if_true]; exact h1 h
  · simp only [h, if_false]; exact h2 h

theorem Erases.logged {tm : TM T Unit} {m : M T Unit} (h : Erases tm m) : Erases (TM.logged tm) (M.logged m) := by
  intro e w
  unfold TM.logged M.logged
  have h := h e w
  revert h
  rcases tm e w with ⟨x | a, w'⟩ <;> rcases m e w.w with ⟨x' | a', w''⟩ <;> rintro ⟨h1, h2⟩ <;> cases h1
  · cases x <;> exact ⟨rfl, h2⟩
  · exact ⟨rfl, h2⟩

theorem Erases.startWatch {tf : Unit → TM T β} {m : M T β} (hf : ∀ a, Erases (tf a) m) :
    Erases (TM.startWatch >>= tf) m := .skip (fun _ _ => ⟨(), rfl, rfl⟩) hf

section
variable [ContentCodec T] [DecidableEq T]

theorem erases_goto (status : Status) : Erases (T := T) (tGotoNewHeight status) (gotoNewHeight status) := by
  unfold tGotoNewHeight gotoNewHeight
  refine .bind (.plain _) fun s => .ite (fun _ => .pure _) fun _ => .bind (.plain _) fun _ => .ite (fun _ => .pure _) fun _ => ?_
  refine .bind (.plain _) fun _ => .startWatch fun _ => ?_
  exact .plain (adoptTail status)

theorem erases_proposal (sp : SignedProposal T) : Erases (tHandleSignedProposal sp) (handleSignedProposal sp) := by
  unfold tHandleSignedProposal handleSignedProposal
  refine .bind (.plain _) fun _ => .startWatch fun _ => .bind (.plain _) fun b => ?_
  exact .ite (fun _ => .pure _) fun _ => .plain (takeProposal sp)

theorem erases_newRound (r : Nat) (lr : Option Nat) (lp : Option Hash) (f : FromWhere) :
    Erases (T := T) (tHandleNewRound r lr lp f) (handleNewRound r lr lp f) := by
  unfold tHandleNewRound handleNewRound
  refine .bind (.plain _) fun s => ?_
  have rest : Erases (T := T)
      (do
        plain (M.modify fun s => { s with round := r, isLeader := false })
        if lr.isSome ≠ lp.isSome then plain (M.fail .proposalErr)
        else
          plain (setUpdateFrom f)
          plain (saveWalWithLockRound .propose lr)
          if (← plain isProposer) = false then
            let s ← plain M.get
            match s.proposals.get s.height s.round with
            | .ok sp => tHandleSignedProposal sp
            | .error _ => pure ()
          else plain (proposeTail lr lp))
      (do
        M.modify fun s => { s with round := r, isLeader := false }
        if lr.isSome ≠ lp.isSome then M.fail .proposalErr
        else
          setUpdateFrom f
          saveWalWithLockRound .propose lr
          if (← isProposer) = false then
            let s ← M.get
            match s.proposals.get s.height s.round with
            | .ok sp => handleSignedProposal sp
            | .error _ => pure ()
          else proposeTail lr lp) := by
    refine .bind (.plain _) fun _ => .ite (fun _ => .plain _) fun _ => .bind (.plain _) fun _ => .bind (.plain _) fun _ =>
      .bind (.plain _) fun b => .ite (fun _ => .bind (.plain _) fun s => ?_) fun _ => .plain _
    cases s.proposals.get s.height s.round with
    | ok sp => exact erases_proposal sp
    | error x => exact .pure _
  exact .ite (fun _ => .bind (.plain _) fun _ => rest) fun _ => rest

theorem commit_split (hash : Hash) : handleCommit (T := T) hash =
    (commitHead hash >>= fun status => nextProposer status.height INIT_ROUND >>= fun _ => gotoNewHeight status) := by
  unfold handleCommit commitHead
  simp only [m_bind_assoc, m_pure_bind]

theorem erases_commit (hash : Hash) : Erases (T := T) (tHandleCommit hash) (handleCommit hash) := by
  rw [commit_split]
  unfold tHandleCommit
  refine .bind (.plain _) fun status => .skip (fun _ _ => ⟨_, rfl, rfl⟩) fun now => .skip (fun _ _ => ⟨_, rfl, rfl⟩) fun begun => ?_
  refine .bind (.plain _) fun mine => .skip (fun e w => ⟨w.w.st, rfl, rfl⟩) fun s => ?_
  split
  · exact .skip (fun _ _ => ⟨(), rfl, rfl⟩) fun _ => erases_goto status
  · exact erases_goto status

theorem erases_start : Erases (T := T) tStartWithWal startWithWal := by
  unfold tStartWithWal startWithWal
  refine .bind (.plain _) fun s => .ite (fun _ => .pure _) fun _ => .bind (.plain _) fun ow => ?_
  cases ow with
  | none => exact .ite (fun _ => .plain _) fun _ => .pure _
  | some w =>
    refine .bind (.plain _) fun _ => .bind (.plain _) fun l => .bind (.plain _) fun _ => ?_
    have rest : Erases (T := T)
        (if w.step = .commit then
          match w.lock with
          | none => plain (M.fail .loadWalErr)
          | some lock => tHandleCommit lock.lockVotes.blockHash
        else do
          if w.step = .brake then plain (handleBrake w.round (w.lock.map WalLock.lockRound))
          plain (M.emit (.trigger { stTrigger .walInfo [] none w.round w.height with walInfo := some w.intoSmrBase })))
        (if w.step = .commit then
          match w.lock with
          | none => M.fail .loadWalErr
          | some lock => handleCommit lock.lockVotes.blockHash
        else do
          if w.step = .brake then handleBrake w.round (w.lock.map WalLock.lockRound)
          M.emit (.trigger { stTrigger .walInfo [] none w.round w.height with walInfo := some w.intoSmrBase })) := by
      refine .ite (fun _ => ?_) fun _ => ?_
      · cases w.lock with
        | none => exact .plain _
        | some lock => exact erases_commit _
      · dsimp only
        by_cases h : w.step = .brake
        · simp only [h, if_true]; exact .bind (.plain _) fun _ => .plain _
        · simp only [h, if_false]; exact .plain _
    dsimp only
    cases hl : w.lock with
    | none => simp only [hl] at rest ⊢; exact rest
    | some lock => simp only [hl] at rest ⊢; exact .bind (.plain _) fun _ => rest

theorem erases_msg (m : OverlordMsg T) : Erases (tHandleMsg m) (handleMsg m) := by
  unfold tHandleMsg handleMsg
  refine .bind (.plain _) fun s => .ite (fun _ => .pure _) fun _ => ?_
  cases m with
  | signedProposal sp => exact .logged (erases_proposal sp)
  | richStatus rs => exact .logged (erases_goto rs)
  | stop => exact .bind (.plain _) fun _ => .plain _
  | _ => exact .plain _

theorem erases_event (ev : SMREvent) : Erases (T := T) (tHandleEvent ev) (handleEvent ev) := by
  unfold tHandleEvent
  cases ev with
  | newRoundInfo h r lr lp f a b => exact .logged (erases_newRound r lr lp f)
  | commit hash => exact .logged (erases_commit hash)
  | _ => exact .plain _

/-- With or without its clock, an arm does the same. -/
theorem erases_arm (i : Input T) : Erases (tRunArm i) (runArm i) := by
  unfold tRunArm
  cases i with
  | start => exact .bind (.logged erases_start) fun _ => .pure _
  | event ev =>
    unfold runArm
    refine .bind (.plain _) fun s => .ite (fun _ => .pure _) fun _ => .ite (fun _ => .pure _) fun _ => ?_
    exact .bind (.logged (erases_event ev)) fun _ => .pure _
  | verified m => exact .bind (.logged (erases_msg m)) fun _ => .pure _
  | raw m => exact .plain _
  | resp r => exact .plain _

end
end Overlord.Clk
