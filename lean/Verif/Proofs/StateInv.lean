import Verif.Proofs.MicroRun2
import Verif.Spec.State
import Mathlib.Data.List.Induction

/-! Invariants of the State over single inputs and over whole histories. -/

set_option linter.unusedSimpArgs false
set_option linter.unusedVariables false
set_option linter.unusedSectionVars false

namespace Overlord
open M Spec

variable {T : Type} [ContentCodec T] [DecidableEq T]

/-- An invariant of the micro-steps holds after the arm. -/
theorem arm_inv {e : Env T} {i : Input T} {s : State T} {P : World T → Prop} (h0 : P ⟨s, []⟩)
    (hs : ∀ (w : World T) eff s', P w → Micro e i w.st eff s' → P ⟨s', w.log ++ eff⟩) :
    P (runArm i e ⟨s, []⟩).2 := by
  have hr := runs_arm e i s
  generalize (runArm i e ⟨s, []⟩).2 = w at hr
  induction hr with
  | refl => exact h0
  | step _ hm ih => exact hs _ _ _ ih hm

/-- An invariant of the state under micro-steps. -/
theorem arm_state_inv {e : Env T} {i : Input T} {s : State T} {P : State T → Prop} (h0 : P s)
    (hs : ∀ s eff s', P s → Micro e i s eff s' → P s') : P (next e i s) :=
  arm_inv (P := fun w => P w.st) h0 fun w eff s' hp hm => hs _ _ _ hp hm

/-- Where an effect comes from. -/
theorem arm_effect {e : Env T} {i : Input T} {s : State T} {P : State T → Prop} (h0 : P s)
    (hs : ∀ s eff s', P s → Micro e i s eff s' → P s') {x : Effect T} (hx : x ∈ effects e i s) :
    ∃ s1 eff s2, P s1 ∧ Micro e i s1 eff s2 ∧ x ∈ eff := by
  have := arm_inv (e := e) (i := i) (s := s) (P := fun w => P w.st ∧ ∀ x ∈ w.log,
    ∃ s1 eff s2, P s1 ∧ Micro e i s1 eff s2 ∧ x ∈ eff) ⟨h0, by simp⟩ (by
      rintro w eff s' ⟨hp, hl⟩ hm
      refine ⟨hs _ _ _ hp hm, fun x hx => ?_⟩
      rcases List.mem_append.1 hx with hx | hx
      · exact hl x hx
      · exact ⟨_, _, _, hp, hm, hx⟩)
  exact this.2 x hx

/-- An effect that needs a predecessor has it. -/
def Preceded (needs : Effect T → Prop) (R : Effect T → Effect T → Prop) (l : List (Effect T)) : Prop :=
  ∀ a x b, l = a ++ x :: b → needs x → ∃ a' y, a = a' ++ [y] ∧ R y x

omit [ContentCodec T] [DecidableEq T] in
theorem Preceded.append {needs : Effect T → Prop} {R : Effect T → Effect T → Prop} {l l' : List (Effect T)}
    (h : Preceded needs R l) (h' : Preceded needs R l') : Preceded needs R (l ++ l') := by
  intro a x b he hn
  rcases List.append_eq_append_iff.1 he with ⟨c, hc1, hc2⟩ | ⟨c, hc1, hc2⟩
  · obtain ⟨a', y, h1, h2⟩ := h' c x b hc2 hn
    exact ⟨l ++ a', y, by rw [hc1, h1, List.append_assoc], h2⟩
  · cases c with
    | nil =>
      simp only [List.nil_append, List.append_nil] at hc1 hc2
      obtain ⟨a', y, h1, h2⟩ := h' [] x b (by simpa using hc2.symm) hn
      simp at h1
    | cons z c =>
      simp only [List.cons_append, List.cons.injEq] at hc2
      obtain ⟨rfl, rfl⟩ := hc2
      exact h a x c hc1 hn

omit [ContentCodec T] [DecidableEq T] in
theorem Preceded.nil {needs : Effect T → Prop} {R : Effect T → Effect T → Prop} : Preceded needs R [] := by
  intro a x b he; simp at he

omit [ContentCodec T] [DecidableEq T] in
theorem Preceded.none {needs : Effect T → Prop} {R : Effect T → Effect T → Prop} {l : List (Effect T)}
    (h : ∀ x ∈ l, ¬ needs x) : Preceded needs R l := by
  intro a x b he hn
  exact absurd hn (h x (by rw [he]; simp))

omit [ContentCodec T] [DecidableEq T] in
theorem Preceded.pair {needs : Effect T → Prop} {R : Effect T → Effect T → Prop} {x y : Effect T}
    (hx : ¬ needs x) (h : R x y) : Preceded needs R [x, y] := by
  intro a z b he hn
  rcases a with _ | ⟨a, _ | ⟨b', a'⟩⟩
  · simp only [List.nil_append, List.cons.injEq] at he
    exact absurd (he.1 ▸ hn) hx
  · simp only [List.cons_append, List.nil_append, List.cons.injEq] at he
    obtain ⟨rfl, rfl, _⟩ := he
    exact ⟨[], x, rfl, h⟩
  · simp at he

/-! ## Histories -/

theorem after_snoc (s0 : State T) (ins : List (Env T × Input T)) (e : Env T) (i : Input T) :
    s0.after (ins ++ [(e, i)]) = (s0.after ins).bind fun s => State.after s [(e, i)] := by
  induction ins generalizing s0 with
  | nil => rfl
  | cons a ins ih =>
    obtain ⟨e', i'⟩ := a
    simp only [List.cons_append, State.after]
    split
    · exact ih _
    · rfl

theorem after_one (s : State T) (e : Env T) (i : Input T) (s' : State T)
    (h : State.after s [(e, i)] = some s') : s' = next e i s := by
  unfold State.after next at *
  split at h
  · rename_i h1
    rw [h1]; simp only [State.after, Option.some.injEq] at h; exact h.symm
  · cases h

/-- Induction over histories. -/
theorem after_inv {s0 : State T} {P : List (Env T × Input T) → State T → Prop} (h0 : P [] s0)
    (hs : ∀ ins s e i, P ins s → P (ins ++ [(e, i)]) (next e i s)) {ins : List (Env T × Input T)} {s : State T}
    (h : s0.after ins = some s) : P ins s := by
  induction ins using List.reverseRecOn generalizing s with
  | nil => simp only [State.after, Option.some.injEq] at h; exact h ▸ h0
  | append_singleton ins a ih =>
    obtain ⟨e, i⟩ := a
    rw [after_snoc] at h
    cases h1 : s0.after ins with
    | none => rw [h1] at h; simp at h
    | some s1 =>
      rw [h1] at h
      simp only [Option.bind_some] at h
      rw [after_one _ _ _ _ h]
      exact hs _ _ _ _ (ih h1)

/-! ## Certificates are filed under their own height, round, type and hash -/

/-- See the title. -/
structure VotesOk (c : VoteCollector) : Prop where
  byId : ∀ h r ty qc, c.getQcById h r ty = .ok qc → qc.height = h ∧ qc.round = r ∧ qc.voteType = ty
  byHash : ∀ h hash ty qc, c.getQcByHash h hash ty = some qc →
    qc.height = h ∧ qc.blockHash = hash ∧ qc.voteType = ty

/-- `getQcById` as an option. -/
def qcId (c : VoteCollector) (h r : Nat) (ty : VoteType) : Option AggregatedVote :=
  (AMap.get? c h).bind (fun v => (v.general.get? r).bind (fun rc => rc.qc.get ty))

theorem getQcById_iff (c : VoteCollector) (h r : Nat) (ty : VoteType) (qc : AggregatedVote) :
    c.getQcById h r ty = .ok qc ↔ qcId c h r ty = some qc := by
  unfold VoteCollector.getQcById
  change (match qcId c h r ty with | some qc => Except.ok qc | none => .error Err.storageErr) = _ ↔ _
  cases qcId c h r ty <;> simp

theorem qc_get_set (q : QuorumCertificate) (qc : AggregatedVote) (ty : VoteType) :
    (q.set qc).get ty = if qc.voteType = ty then some qc else q.get ty := by
  unfold QuorumCertificate.set QuorumCertificate.get
  cases h : qc.voteType <;> cases ty <;> simp

theorem qc_new_get (ty : VoteType) : QuorumCertificate.new.get ty = none := by
  cases ty <;> rfl

theorem qcId_setQc (c : VoteCollector) (q : AggregatedVote) (h r : Nat) (ty : VoteType) :
    qcId (c.setQc q) h r ty =
      if q.height = h ∧ q.round = r ∧ q.voteType = ty then some q else qcId c h r ty := by
  unfold qcId VoteCollector.setQc
  rw [AMap.get?_insert]
  by_cases h1 : q.height = h
  · subst h1
    simp only [if_true, Option.bind_some, true_and, VoteRoundCollector.setQc]
    rw [AMap.get?_insert]
    by_cases h2 : q.round = r
    · subst h2
      simp only [if_true, Option.bind_some, true_and, qc_get_set]
      split
      · rfl
      · cases h3 : AMap.get? c q.height with
        | none => simp [VoteRoundCollector.new, AMap.get?, RoundCollector.new, qc_new_get]
        | some v =>
          simp only [Option.getD_some, Option.bind_some]
          cases h4 : AMap.get? v.general q.round with
          | none => simp [RoundCollector.new, qc_new_get]
          | some rc => simp
    · simp only [h2, if_false, false_and]
      cases h3 : AMap.get? c q.height with
      | none => simp [VoteRoundCollector.new, AMap.get?]
      | some v => simp
  · simp [h1]

theorem getQcByHash_setQc (c : VoteCollector) (q : AggregatedVote) (h : Nat) (hash : Hash) (ty : VoteType) :
    (c.setQc q).getQcByHash h hash ty =
      if q.height = h ∧ q.blockHash = hash ∧ q.voteType = ty then some q else c.getQcByHash h hash ty := by
  unfold VoteCollector.getQcByHash VoteCollector.setQc
  rw [AMap.get?_insert]
  by_cases h1 : q.height = h
  · subst h1
    simp only [if_true, Option.bind_some, true_and, VoteRoundCollector.setQc]
    rw [AMap.get?_insert]
    by_cases h2 : q.blockHash = hash
    · subst h2
      simp only [if_true, Option.bind_some, true_and, qc_get_set]
      split
      · rfl
      · cases h3 : AMap.get? c q.height with
        | none => simp [VoteRoundCollector.new, AMap.get?, qc_new_get]
        | some v =>
          simp only [Option.getD_some, Option.bind_some]
          cases h4 : AMap.get? v.qcByHash q.blockHash with
          | none => simp [qc_new_get]
          | some rc => simp
    · simp only [h2, if_false, false_and]
      cases h3 : AMap.get? c q.height with
      | none => simp [VoteRoundCollector.new, AMap.get?]
      | some v => simp
  · simp [h1]

theorem qcId_insertVote (c : VoteCollector) (hash : Hash) (sv : SignedVote) (a : Address) (h r : Nat)
    (ty : VoteType) : qcId (c.insertVote hash sv a) h r ty = qcId c h r ty := by
  unfold qcId VoteCollector.insertVote
  rw [AMap.get?_insert]
  by_cases h1 : sv.vote.height = h
  · subst h1
    simp only [if_true, Option.bind_some, VoteRoundCollector.insertVote]
    rw [AMap.get?_insert]
    by_cases h2 : sv.vote.round = r
    · subst h2
      have hq : ∀ rc : RoundCollector, (rc.insertVote hash sv a).qc = rc.qc := by
        intro rc; unfold RoundCollector.insertVote; split <;> rfl
      simp only [if_true, Option.bind_some, hq]
      cases h3 : AMap.get? c sv.vote.height with
      | none => simp [VoteRoundCollector.new, AMap.get?, RoundCollector.new, qc_new_get]
      | some v =>
        simp only [Option.getD_some, Option.bind_some]
        cases h4 : AMap.get? v.general sv.vote.round with
        | none => simp [RoundCollector.new, qc_new_get]
        | some rc => simp
    · simp only [h2, if_false]
      cases h3 : AMap.get? c sv.vote.height with
      | none => simp [VoteRoundCollector.new, AMap.get?]
      | some v => simp
  · simp [h1]

theorem getQcByHash_insertVote (c : VoteCollector) (hash : Hash) (sv : SignedVote) (a : Address) (h : Nat)
    (hash' : Hash) (ty : VoteType) :
    (c.insertVote hash sv a).getQcByHash h hash' ty = c.getQcByHash h hash' ty := by
  unfold VoteCollector.getQcByHash VoteCollector.insertVote
  rw [AMap.get?_insert]
  by_cases h1 : sv.vote.height = h
  · subst h1
    simp only [if_true, Option.bind_some, VoteRoundCollector.insertVote]
    cases h3 : AMap.get? c sv.vote.height with
    | none => simp [VoteRoundCollector.new, AMap.get?]
    | some v => simp
  · simp [h1]

theorem VotesOk.new : VotesOk [] := by
  constructor
  · intro h r ty qc hq; rw [getQcById_iff] at hq; simp [qcId, AMap.get?] at hq
  · intro h r ty qc hq; simp [VoteCollector.getQcByHash, AMap.get?] at hq

theorem VotesOk.setQc {c : VoteCollector} (h : VotesOk c) (q : AggregatedVote) : VotesOk (c.setQc q) := by
  constructor
  · intro hh r ty qc hq
    rw [getQcById_iff, qcId_setQc] at hq
    split at hq
    · rename_i h1; simp only [Option.some.injEq] at hq; subst hq; exact h1
    · exact h.byId _ _ _ _ ((getQcById_iff ..).2 hq)
  · intro hh r ty qc hq
    rw [getQcByHash_setQc] at hq
    split at hq
    · rename_i h1; simp only [Option.some.injEq] at hq; subst hq; exact h1
    · exact h.byHash _ _ _ _ hq

theorem VotesOk.insertVote {c : VoteCollector} (h : VotesOk c) (hash : Hash) (sv : SignedVote) (a : Address) :
    VotesOk (c.insertVote hash sv a) := by
  constructor
  · intro hh r ty qc hq
    rw [getQcById_iff, qcId_insertVote, ← getQcById_iff] at hq
    exact h.byId _ _ _ _ hq
  · intro hh r ty qc hq
    rw [getQcByHash_insertVote] at hq
    exact h.byHash _ _ _ _ hq

theorem VotesOk.sub {c c' : VoteCollector} (h : VotesOk c)
    (hs : ∀ k, AMap.get? c' k = AMap.get? c k ∨ AMap.get? c' k = none) : VotesOk c' := by
  constructor
  · intro hh r ty qc hq
    rw [getQcById_iff] at hq
    apply h.byId
    rw [getQcById_iff]
    rcases hs hh with h1 | h1
    · unfold qcId at hq ⊢; rwa [h1] at hq
    · unfold qcId at hq; rw [h1] at hq; simp at hq
  · intro hh r ty qc hq
    apply h.byHash
    rcases hs hh with h1 | h1
    · unfold VoteCollector.getQcByHash at hq ⊢; rwa [h1] at hq
    · unfold VoteCollector.getQcByHash at hq; rw [h1] at hq; simp at hq

/-- The vote collector after a status has been adopted: the heights from the previous one on, without
the new one. -/
theorem get?_adopted_votes (sh : Shuffle) (c : VoteCollector) (height k : Nat) :
    AMap.get? ((c.flush (height - 1)).getHeightVotes sh height).2 k =
      if k = height then none else if height - 1 ≤ k then AMap.get? c k else none := by
  unfold VoteCollector.getHeightVotes VoteCollector.flush
  split
  · rw [AMap.get?_erase, AMap.get?_splitOff]
    by_cases hk : k = height
    · simp [hk]
    · simp [hk, Ne.symm hk]
  · rename_i h1
    rw [AMap.get?_splitOff] at h1 ⊢
    by_cases hk : k = height
    · subst hk; simp only [if_true]; exact h1
    · simp [hk]

theorem get?_adopted_proposals (sh : Shuffle) (c : ProposalCollector T) (height k : Nat) :
    AMap.get? ((c.flush (height - 1)).getHeightProposals sh height).2 k =
      if k = height then none else if height - 1 ≤ k then AMap.get? c k else none := by
  unfold ProposalCollector.getHeightProposals ProposalCollector.flush
  split
  · rw [AMap.get?_erase, AMap.get?_splitOff]
    by_cases hk : k = height
    · simp [hk]
    · simp [hk, Ne.symm hk]
  · rename_i h1
    rw [AMap.get?_splitOff] at h1 ⊢
    by_cases hk : k = height
    · subst hk; simp only [if_true]; exact h1
    · simp [hk]

theorem VotesOk.adopted {sh : Shuffle} {c : VoteCollector} (h : VotesOk c) (height : Nat) :
    VotesOk ((c.flush (height - 1)).getHeightVotes sh height).2 :=
  h.sub fun k => by
    rw [get?_adopted_votes]
    by_cases h1 : k = height
    · exact .inr (by simp [h1])
    · by_cases h2 : height - 1 ≤ k
      · exact .inl (by simp [h1, h2])
      · exact .inr (by simp [h1, h2])

theorem votesOk_micro {e : Env T} {i : Input T} {s : State T} {eff : List (Effect T)} {s' : State T}
    (h : VotesOk s.votes) (hm : Micro e i s eff s') : VotesOk s'.votes := by
  cases hm with
  | recvQc => exact h.setQc _
  | genQc => exact h.setQc _
  | recvVote => exact h.insertVote ..
  | castVote => dsimp only; split; exacts [h.insertVote .., h]
  | adopt => exact h.adopted _
  | restoreLock => exact h.setQc _
  | _ => exact h

theorem votesOk_next {e : Env T} {i : Input T} {s : State T} (h : VotesOk s.votes) :
    VotesOk (next e i s).votes :=
  arm_state_inv (P := fun s => VotesOk s.votes) h fun _ _ _ hp hm => votesOk_micro hp hm

theorem votesOk_after {addr : Address} {ih iv : Nat} {l : List Node} {ins : List (Env T × Input T)}
    {s : State T} (h : (State.new addr ih iv l : State T).after ins = some s) : VotesOk s.votes :=
  after_inv (P := fun _ s => VotesOk s.votes) VotesOk.new (fun _ _ _ _ hp => votesOk_next hp) h

end Overlord
