import Verif.Proofs.Clock
import Verif.Spec.Clock

/-! Time stamps. -/

set_option linter.unusedSimpArgs false
set_option linter.unusedVariables false
set_option linter.unusedSectionVars false

namespace Overlord.Clk
open TM Spec

variable {T α β γ : Type}

/-- The effect does not start a height. -/
def Low (x : Effect T) : Prop := ∀ tr st, x = .trigger tr → tr.triggerType ≠ .newHeight st

/-- `m` only appends effects that are `P`, and keeps the interval. -/
def Ext (P : Effect T → Prop) (m : M T α) : Prop :=
  ∀ e w, ∃ l, (m e w).2.log = w.log ++ l ∧ (∀ x ∈ l, P x) ∧ ((m e w).2.st.blockInterval = w.st.blockInterval ∧ (m e w).2.st.address = w.st.address)

section
variable {P : Effect T → Prop}

theorem Ext.same {m : M T α} (h : ∀ e w, (m e w).2 = w) : Ext P m := fun e w => ⟨[], by simp [h], by simp, by rw [h]; exact ⟨rfl, rfl⟩⟩
theorem Ext.pure (a : α) : Ext P (Pure.pure a : M T α) := .same fun _ _ => rfl
theorem Ext.mpure (a : α) : Ext P (M.pure a : M T α) := .same fun _ _ => rfl
theorem Ext.get : Ext P (M.get : M T (State T)) := .same fun _ _ => rfl
theorem Ext.ask (f : Env T → α) : Ext P (M.ask f) := .same fun _ _ => rfl
theorem Ext.fail (x : Err) : Ext P (M.fail x : M T α) := .same fun _ _ => rfl
theorem Ext.lift (x : Except Err α) : Ext P (M.lift x : M T α) := .same fun _ _ => rfl
theorem Ext.some (x : Option α) (y : Err) : Ext P (M.some! x y : M T α) := .same fun _ _ => by cases x <;> rfl
theorem Ext.modify {f : State T → State T} (h : ∀ s, (f s).blockInterval = s.blockInterval ∧ (f s).address = s.address) : Ext P (M.modify f) :=
  fun e w => ⟨[], by simp [M.modify], by simp, h _⟩
theorem Ext.emit {x : Effect T} (h : P x) : Ext P (M.emit x) := fun e w => ⟨[x], rfl, by simpa using h, rfl, rfl⟩
theorem Ext.bind {m : M T α} {f : α → M T β} (h : Ext P m) (hf : ∀ a, Ext P (f a)) : Ext P (m >>= f) := by
  intro e w
  show ∃ l, (M.bind m f e w).2.log = _ ∧ _ ∧ ((M.bind m f e w).2.st.blockInterval = _ ∧ (M.bind m f e w).2.st.address = _)
  unfold M.bind
  have h := h e w
  revert h
  rcases m e w with ⟨x | a, w'⟩
  · exact id
  · rintro ⟨l, h1, h2, h3⟩
    obtain ⟨l', g1, g2, g3⟩ := hf a e w'
    refine ⟨l ++ l', by rw [g1, h1]; simp, fun x hx => ?_, g3.1.trans h3.1, g3.2.trans h3.2⟩
    rcases List.mem_append.1 hx with hx | hx
    exacts [h2 x hx, g2 x hx]
theorem Ext.ite {c : Prop} [Decidable c] {a b : M T α} (h1 : Ext P a) (h2 : Ext P b) : Ext P (if c then a else b) := by
  split
  exacts [h1, h2]
theorem Ext.logged {m : M T Unit} (h : Ext P m) : Ext P (M.logged m) := by
  intro e w
  unfold M.logged
  have h := h e w
  revert h
  rcases m e w with ⟨x | a, w'⟩
  · cases x <;> exact id
  · exact id
theorem Ext.forEach {l : List α} {f : α → M T Unit} (h : ∀ a, Ext P (f a)) : Ext P (M.forEach l f) := by
  induction l with
  | nil => exact .mpure ()
  | cons a l ih => exact Ext.bind (h a) fun _ => ih
end

theorem low_trigger {tr : SMRTrigger} (h : ∀ st, tr.triggerType ≠ .newHeight st) : Low (T := T) (.trigger tr) := by
  rintro _ st ⟨⟩; exact h st

macro "low" : tactic => `(tactic| first
  | (intro _ _ h; cases h; done)
  | (refine low_trigger fun _ h => ?_; cases h; done)
  | (refine low_trigger fun _ h => ?_; dsimp only [stTrigger, VoteType.toTrigger] at h; split at h <;> cases h; done))

macro "exts" : tactic => `(tactic| repeat' (first
  | exact Ext.get | exact Ext.ask _ | exact Ext.pure _ | exact Ext.fail _ | exact Ext.lift _ | exact Ext.some _ _
  | exact Ext.modify (fun _ => ⟨rfl, rfl⟩) | (refine Ext.emit ?_; low) | exact Ext.logged (by assumption)
  | assumption
  | refine Ext.bind ?_ (fun _ => ?_) | refine Ext.ite ?_ ?_ | split))

section
variable [ContentCodec T] [DecidableEq T]

theorem ext_verifyProposer (h r : Nat) (a : Address) : Ext (T := T) Low (verifyProposer h r a) := by
  unfold verifyProposer verifyAddress; exts
theorem ext_filter (sp : SignedProposal T) : Ext Low (filterSignedProposal sp) := by
  unfold filterSignedProposal; exts
theorem ext_take (sp : SignedProposal T) : Ext Low (takeProposal sp) := by
  unfold takeProposal checkBlock; exts
theorem ext_save (step : Step) (lock : Option (WalLock T)) : Ext Low (saveWal step lock) := by
  unfold saveWal; exts
theorem ext_saveLR (step : Step) (lr : Option Nat) : Ext (T := T) Low (saveWalWithLockRound step lr) := by
  unfold saveWalWithLockRound
  have h := ext_save (T := T)
  refine .bind .get fun s => ?_
  split
  · exact h _ _
  · split
    · exact .fail _
    · exact .bind (.some _ _) fun _ => h _ _
theorem ext_isProposer : Ext (T := T) Low isProposer := by unfold isProposer; exts
theorem ext_nextProposer (h r : Nat) : Ext (T := T) Low (nextProposer h r) := by unfold nextProposer; exts
theorem ext_report (r : Nat) (x : ViewChangeReason) : Ext (T := T) Low (reportViewChange r x) := by
  unfold reportViewChange; exts
theorem ext_setFrom (f : FromWhere) : Ext (T := T) Low (setUpdateFrom f) := by
  unfold setUpdateFrom
  exts
theorem ext_proposeTail (lr : Option Nat) (lp : Option Hash) : Ext (T := T) Low (proposeTail lr lp) := by
  unfold proposeTail proposalParts signProposal broadcast checkBlock
  exts
theorem ext_commitHead (hash : Hash) : Ext (T := T) Low (commitHead hash) := by
  unfold commitHead
  have h := ext_save (T := T)
  refine .bind .get fun s => .bind (.some _ _) fun c => .bind (.some _ _) fun qc => .bind (h _ _) fun _ => ?_
  exts
theorem ext_checkChoke : Ext (T := T) Low checkChokeAboveThreshold := by
  unfold checkChokeAboveThreshold aggregateSignatures; exts
theorem ext_brake (r : Nat) (lr : Option Nat) : Ext (T := T) Low (handleBrake r lr) := by
  unfold handleBrake broadcast
  have h := ext_saveLR (T := T) .brake lr
  have h2 := ext_checkChoke (T := T)
  exts
theorem ext_walLost : Ext (T := T) Low walLost := by unfold walLost; exts
theorem ext_loadWal : Ext (T := T) Low loadWal := by unfold loadWal; exts
theorem ext_aggVote (qc : AggregatedVote) : Ext (T := T) Low (handleAggregatedVote qc) := by
  unfold handleAggregatedVote; exts
theorem ext_aggChoke (ac : AggregatedChoke) : Ext (T := T) Low (handleAggregatedChoke ac) := by
  unfold handleAggregatedChoke; exts
theorem ext_choke (sc : SignedChoke) : Ext (T := T) Low (handleSignedChoke sc) := by
  unfold handleSignedChoke
  have h1 := ext_aggVote (T := T)
  have h2 := ext_aggChoke (T := T)
  have h3 := ext_checkChoke (T := T)
  refine .bind .get fun s => .ite (.pure _) (.ite (.pure _) (.ite ?_ (.bind (.modify fun _ => ⟨rfl, rfl⟩) fun _ => h3)))
  split
  exacts [h1 _, h1 _, h2 _]
theorem ext_genQc (hash : Hash) (ty : VoteType) : Ext (T := T) Low (generateQc hash ty) := by
  unfold generateQc aggregateSignatures; exts
theorem ext_count (ty : VoteType) : Ext (T := T) Low (countVotes ty) := by unfold countVotes; exts
theorem ext_vote (sv : SignedVote) : Ext (T := T) Low (handleSignedVote sv) := by
  unfold handleSignedVote verifyAddress broadcast
  have h1 := ext_genQc (T := T)
  have h2 := ext_count (T := T) sv.vote.voteType
  refine .bind .get fun s => .ite (.pure _) (.bind (by exts) fun _ => ?_)
  split
  · exact .pure _
  · refine .bind (.modify fun _ => ⟨rfl, rfl⟩) fun _ => .ite (.pure _) (.bind h2 fun o => ?_)
    split
    · exact .pure _
    · refine .bind (h1 _ _) fun qc => ?_
      exts
theorem ext_voteProcess (ty : VoteType) : Ext (T := T) Low (voteProcess ty) := by
  unfold voteProcess broadcast
  have h1 := ext_genQc (T := T)
  have h2 := ext_count (T := T) ty
  refine .bind .get fun s => .ite ?_ (.bind h2 fun o => ?_)
  · exts
  · split
    · exact .pure _
    · refine .bind (h1 _ _) fun qc => ?_
      exts
theorem ext_voteEvent (hash : Hash) (ty : VoteType) (lr : Option Nat) : Ext (T := T) Low (handleVoteEvent hash ty lr) := by
  unfold handleVoteEvent signVote transmit
  have h1 := ext_saveLR (T := T) ty.toStep lr
  have h2 := ext_voteProcess (T := T) ty
  exts
theorem ext_resp (r : VerifyResp) : Ext (T := T) Low (handleResp r) := by
  unfold handleResp; exts

end
end Overlord.Clk
