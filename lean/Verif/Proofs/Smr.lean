import Verif.Spec.Smr

/-! Helper lemmas about the voting state machine. -/

set_option linter.unusedSimpArgs false

namespace Overlord
open Spec

@[simp] theorem Step.toNat_propose : Step.propose.toNat = 0 := rfl
@[simp] theorem Step.toNat_prevote : Step.prevote.toNat = 1 := rfl
@[simp] theorem Step.toNat_precommit : Step.precommit.toNat = 2 := rfl
@[simp] theorem Step.toNat_brake : Step.brake.toNat = 3 := rfl
@[simp] theorem Step.toNat_commit : Step.commit.toNat = 4 := rfl

theorem inc64_of_lt {n : Nat} (h : n < 2 ^ 64 - 1) : inc64 n = n + 1 := by
  unfold inc64 U64; omega

theorem Spec.Pos.le_refl (a : Pos) : Pos.le a a := by simp [Pos.le]
theorem Spec.Pos.le_trans {a b c : Pos} (h1 : Pos.le a b) (h2 : Pos.le b c) : Pos.le a c := by
  simp only [Pos.le] at *; omega
theorem Spec.Pos.lt_of_lt_of_le {a b c : Pos} (h1 : Pos.lt a b) (h2 : Pos.le b c) : Pos.lt a c := by
  simp only [Pos.le, Pos.lt] at *; omega
theorem Spec.Pos.lt_of_le_of_lt {a b c : Pos} (h1 : Pos.le a b) (h2 : Pos.lt b c) : Pos.lt a c := by
  simp only [Pos.le, Pos.lt] at *; omega
theorem Spec.Pos.lt_irrefl (a : Pos) : ¬ Pos.lt a a := by simp only [Pos.lt]; omega
theorem Spec.Pos.le_of_lt {a b : Pos} (h : Pos.lt a b) : Pos.le a b := by
  simp only [Pos.le, Pos.lt] at *; omega

theorem Step.toNat_le (s : Step) : s.toNat ≤ 4 := by cases s <;> decide

/-- What accepting a proposal does to the machine. -/
theorem accept_spec {s s1 : Smr} {hash : Hash} {lr : Option Nat}
    (h : s.acceptProposal hash lr = some s1) :
    s1.height = s.height ∧ s1.round = s.round ∧ s1.step = s.step ∧
    ((s1.lock = s.lock ∧ s1.blockHash = s.blockHash ∧ s.lock ≠ none) ∨
     (s1.lock = none ∧ s1.blockHash = hash ∧
       (s.lock = none ∨ ∃ l r, s.lock = some l ∧ lr = some r ∧ r > l.round))) := by
  unfold Smr.acceptProposal at h
  (repeat' split at h) <;> simp_all <;> (subst h; simp_all)

/-- Every way one iteration of the state machine can go (proved complete in `smr_case`). -/
inductive SmrCase (s : Smr) (t : SMRTrigger) : SmrOut → Prop
  | quiet (res : SmrRes) : SmrCase s t ⟨s, [], res⟩
  | newHeight (st : SMRStatus) (ht : t.triggerType = .newHeight st) (hs : t.source = .state)
      (hh : s.height < st.height) :
      SmrCase s t ⟨⟨st.height, 0, .propose, [], none⟩,
        [.both (.newRoundInfo st.height 0 none none (.precommitQC U64MAX)
          st.newInterval st.newConfig)], .ok⟩
  | propTimer (ht : t.triggerType = .proposal) (hs : t.source = .timer)
      (hh : t.height = s.height) (hr : t.round = s.round) (hst : s.step = .propose) :
      SmrCase s t ⟨{ s with step := .prevote },
        [.both (.prevoteVote s.height s.round (s.lockProposal.getD []) s.lockRound)], .ok⟩
  | propState (s1 : Smr) (ht : t.triggerType = .proposal) (hs : t.source = .state)
      (hh : t.height = s.height) (hr : t.round = s.round) (hst : s.step = .propose)
      (hne : t.hash ≠ []) (hacc : s.acceptProposal t.hash t.lockRound = some s1) :
      SmrCase s t ⟨{ s1 with step := .prevote },
        [.both (.prevoteVote s1.height s1.round s1.blockHash s1.lockRound)], .ok⟩
  | prevoteTimer (b : Hash) (ht : t.triggerType = .prevoteQC) (hs : t.source = .timer)
      (hh : t.height = s.height) (hr : t.round = s.round) (hst : s.step.toNat ≤ 1)
      (hb : (s.lock = none ∧ b = []) ∨ (s.lock ≠ none ∧ b = s.blockHash)) :
      SmrCase s t ⟨{ s with step := .precommit, blockHash := b },
        [.both (.precommitVote s.height s.round [] s.lockRound)], .ok⟩
  | prevoteSame (ht : t.triggerType = .prevoteQC) (hs : t.source = .state)
      (hh : t.height = s.height) (hr : t.round = s.round) (hst : s.step.toNat ≤ 1) :
      SmrCase s t ⟨{ s.updatePolc t.hash t.round with step := .precommit },
        [.both (.precommitVote s.height s.round t.hash (s.updatePolc t.hash t.round).lockRound)], .ok⟩
  | prevoteSkip (ht : t.triggerType = .prevoteQC) (hs : t.source = .state)
      (hh : t.height = s.height) (hr : s.round < t.round) :
      SmrCase s t ⟨{ s.updatePolc t.hash t.round with step := .precommit, round := inc64 t.round },
        [.both (.newRoundInfo s.height (inc64 t.round) (s.updatePolc t.hash t.round).lockRound
            (s.updatePolc t.hash t.round).lockProposal (.prevoteQC t.round) none none),
         .both (.precommitVote s.height (inc64 t.round) t.hash
            (s.updatePolc t.hash t.round).lockRound)], .ok⟩
  | precommitTimer (ht : t.triggerType = .precommitQC) (hs : t.source = .timer)
      (hh : t.height = s.height) (hr : t.round = s.round) (hst : s.step ≠ .commit) :
      SmrCase s t ⟨{ s with step := .brake }, [.both (.brake s.height s.round s.lockRound)], .ok⟩
  | precommitNil (ht : t.triggerType = .precommitQC) (hs : t.source = .state)
      (hh : t.height = s.height) (hr : s.round ≤ t.round) (hst : s.step ≠ .commit)
      (hn : t.hash = []) :
      SmrCase s t ⟨{ s with step := .propose, round := inc64 t.round },
        [.both (.newRoundInfo s.height (inc64 t.round) s.lockRound s.lockProposal
          (.precommitQC t.round) none none)], .ok⟩
  | commit (ht : t.triggerType = .precommitQC) (hs : t.source = .state)
      (hh : t.height = s.height) (hst : s.step ≠ .commit) (hn : t.hash ≠ []) :
      SmrCase s t ⟨{ s with step := .commit }, [.both (.commit t.hash)], .ok⟩
  | brake (ht : t.triggerType = .brakeTimeout) (hs : t.source = .timer)
      (hh : t.height = s.height) (hr : t.round = s.round) :
      SmrCase s t ⟨s, [.both (.brake s.height s.round s.lockRound)], .ok⟩
  | cont (ht : t.triggerType = .continueRound) (hs : t.source = .state)
      (hh : t.height = s.height) (hr : s.round < t.round) :
      SmrCase s t ⟨{ s with step := .propose, round := inc64 (t.round - 1) },
        [.both (.newRoundInfo s.height (inc64 (t.round - 1)) s.lockRound s.lockProposal
          (.chokeQC (t.round - 1)) none none)], .ok⟩
  | wal (w : SMRBase) (ht : t.triggerType = .walInfo) (hw : t.walInfo = some w) :
      SmrCase s t (s.handleWal w)
  | stop (ht : t.triggerType = .stop) : SmrCase s t ⟨s, [.both .stop], .ended⟩

theorem Step.eq_propose {s : Step} (h : ¬ s.toNat > Step.propose.toNat) : s = .propose := by
  cases s <;> simp_all [Step.toNat]

theorem smr_case (s : Smr) (t : SMRTrigger) : SmrCase s t (s.onTrigger t) := by
  unfold Smr.onTrigger
  split
  · -- newHeight
    unfold Smr.handleNewHeight
    split
    · exact .quiet _
    split
    · exact .quiet _
    · rename_i st ht hs hh
      exact .newHeight st ht (by simpa using hs) (by omega)
  · -- proposal
    unfold Smr.handleProposal
    split
    · exact .quiet _
    rename_i ht h1
    simp only [ne_eq, not_or, Decidable.not_not] at h1
    split
    · exact .quiet _
    rename_i h2
    have hst := Step.eq_propose h2
    split
    · rename_i hs
      have := SmrCase.propTimer ht hs h1.1.symm h1.2.symm hst
      simp only [Smr.lockProposal, Smr.lockRound] at this
      cases hl : s.lock <;> simpa [hl] using this
    rename_i hs
    have hs : t.source = .state := by cases h : t.source <;> simp_all
    split
    · exact .quiet _
    rename_i hne
    split
    · exact .quiet _
    · rename_i s1 hacc
      exact .propState s1 ht hs h1.1.symm h1.2.symm hst hne hacc
  · -- prevoteQC
    unfold Smr.handlePrevote
    split
    · exact .quiet _
    rename_i ht h1
    simp only [ne_eq, Decidable.not_not] at h1
    split
    · exact .quiet _
    rename_i h2
    have h2' : t.round = s.round → s.step.toNat ≤ 1 := by
      intro h; have : ¬ s.step.toNat > Step.prevote.toNat := fun hc => h2 ⟨h, hc⟩
      simp only [Step.toNat] at this ⊢; omega
    split
    · rename_i hs
      split
      · exact .quiet _
      rename_i hr
      simp only [ne_eq, Decidable.not_not] at hr
      cases hl : s.lock with
      | none =>
        have := SmrCase.prevoteTimer (s := s) [] ht hs h1.symm hr (h2' hr) (.inl ⟨hl, rfl⟩)
        simpa [Smr.lockRound, hl] using this
      | some l =>
        have := SmrCase.prevoteTimer (s := s) s.blockHash ht hs h1.symm hr (h2' hr)
          (.inr ⟨by simp [hl], rfl⟩)
        simpa [Smr.lockRound, hl] using this
    rename_i hs
    have hs : t.source = .state := by cases h : t.source <;> simp_all
    split
    · exact .quiet _
    rename_i hlt
    by_cases hgt : t.round > s.round
    · have := SmrCase.prevoteSkip (s := s) ht hs h1.symm hgt
      simp only [if_pos hgt]
      unfold Smr.updatePolc at *
      split <;> simp_all [Smr.gotoNextRound, Smr.lockRound, Smr.lockProposal]
    · have hr : t.round = s.round := by omega
      have := SmrCase.prevoteSame (s := s) ht hs h1.symm hr (h2' hr)
      simp only [if_neg hgt]
      unfold Smr.updatePolc at *
      split <;> simp_all [Smr.gotoNextRound, Smr.lockRound, Smr.lockProposal]
  · -- precommitQC
    unfold Smr.handlePrecommit
    split
    · exact .quiet _
    rename_i ht h1
    simp only [ne_eq, Decidable.not_not] at h1
    split
    · exact .quiet _
    rename_i hst
    split
    · rename_i hs
      split
      · exact .quiet _
      rename_i hr
      exact .precommitTimer ht hs h1.symm (by simpa using hr) hst
    rename_i hs
    have hs : t.source = .state := by cases h : t.source <;> simp_all
    split
    · rename_i hn
      split
      · exact .quiet _
      rename_i hr
      exact .precommitNil ht hs h1.symm (by omega) hst hn
    · rename_i hn
      exact .commit ht hs h1.symm hst hn
  · -- brakeTimeout
    split
    · unfold Smr.handleBrakeTimeout
      split
      · exact .quiet _
      rename_i ht hs h
      simp only [ne_eq, not_or, Decidable.not_not] at h
      have := SmrCase.brake (s := s) ht hs h.1 h.2
      rw [h.1, h.2]; exact this
    · exact .quiet _
  · -- continueRound
    split
    · unfold Smr.handleContinueRound
      split
      · exact .quiet _
      rename_i ht hs h
      simp only [ne_eq, not_or, Decidable.not_not] at h
      exact SmrCase.cont (s := s) ht hs h.1 (by omega)
    · exact .quiet _
  · -- walInfo
    split
    · rename_i ht _ w hw
      exact .wal w ht hw
    · exact .quiet _
  · rename_i ht
    exact .stop ht

theorem Step.lt_commit_of_ne {s : Step} (h : s ≠ .commit) : s.toNat ≤ 3 := by
  cases s <;> simp_all [Step.toNat]

theorem updatePolc_height (s : Smr) (h : Hash) (r : Nat) : (s.updatePolc h r).height = s.height := by
  unfold Smr.updatePolc; split <;> rfl
theorem updatePolc_round (s : Smr) (h : Hash) (r : Nat) : (s.updatePolc h r).round = s.round := by
  unfold Smr.updatePolc; split <;> rfl
theorem updatePolc_blockHash (s : Smr) (h : Hash) (r : Nat) :
    (s.updatePolc h r).blockHash = h := by
  unfold Smr.updatePolc; split <;> rfl
theorem updatePolc_lock (s : Smr) (h : Hash) (r : Nat) :
    (s.updatePolc h r).lock = if h = [] then none else some ⟨r, h⟩ := by
  unfold Smr.updatePolc; split <;> rfl

theorem step_pos (s : Smr) (t : SMRTrigger) (hw : NotWal t) (hr : InRange t)
    (hl : ¬ LastRoundQC t) : Pos.le (pos s) (pos (s.onTrigger t).next) := by
  have h := smr_case s t
  generalize s.onTrigger t = o at *
  simp only [NotWal, InRange, LastRoundQC] at hw hr hl
  cases h with
  | propState s1 ht hs hh hr' hst hne hacc =>
    have := accept_spec hacc
    have h1 := this.1; have h2 := this.2.1
    simp only [true_and, pos, Pos.le, h1, h2, hst, Step.toNat_propose, Step.toNat_prevote, Step.toNat_precommit, Step.toNat_brake, Step.toNat_commit]; omega
  | precommitTimer ht hs hh hr' hst =>
    have := Step.lt_commit_of_ne hst
    simp only [true_and, pos, Pos.le, Step.toNat_propose, Step.toNat_prevote, Step.toNat_precommit, Step.toNat_brake, Step.toNat_commit] at *; omega
  | commit ht hs hh hst hn =>
    have := Step.toNat_le s.step
    simp only [true_and, pos, Pos.le, Step.toNat_propose, Step.toNat_prevote, Step.toNat_precommit, Step.toNat_brake, Step.toNat_commit] at *; omega
  | _ =>
    simp_all only [pos, Pos.le, Step.toNat_propose, Step.toNat_prevote, Step.toNat_precommit, Step.toNat_brake, Step.toNat_commit, inc64, U64, updatePolc_height, updatePolc_round,
      ne_eq, not_true_eq_false, reduceCtorEq, true_or, or_true, true_and, false_or, or_false] <;>
    omega

/-- A vote ordered in one iteration moves the machine strictly forward, to exactly the position of
the vote, and it is the only vote of the iteration. -/
theorem step_vote (s : Smr) (t : SMRTrigger) (hr : InRange t)
    (hl : ¬ LastRoundQC t) (v : OVote) (hv : v ∈ votesIn (s.onTrigger t)) :
    votesIn (s.onTrigger t) = [v] ∧
    Pos.lt (pos s) ⟨v.height, v.round, v.kind.toStep.toNat⟩ ∧
    pos (s.onTrigger t).next = ⟨v.height, v.round, v.kind.toStep.toNat⟩ := by
  have h := smr_case s t
  generalize s.onTrigger t = o at *
  simp only [InRange, LastRoundQC] at hr hl
  cases h with
  | wal w ht hw =>
    unfold Smr.handleWal at hv
    simp only at hv
    split at hv <;> simp [votesIn, voteOf] at hv
  | propState s1 ht hs hh hr' hst hne hacc =>
    have := accept_spec hacc
    simp [votesIn, voteOf] at hv
    subst hv
    simp [votesIn, voteOf, pos, Pos.lt, this, hst, Step.toNat_propose, Step.toNat_prevote, Step.toNat_precommit, Step.toNat_brake, Step.toNat_commit, VoteType.toStep]
  | _ =>
    simp [votesIn, voteOf] at hv <;>
    (try subst hv) <;>
    simp_all only [votesIn, voteOf, pos, Pos.lt, Step.toNat_propose, Step.toNat_prevote, Step.toNat_precommit, Step.toNat_brake, Step.toNat_commit, VoteType.toStep, inc64, U64, updatePolc_height, updatePolc_round,
      List.filterMap_cons, List.filterMap_nil, true_and, and_true, true_or, or_true] <;>
    omega

theorem run_cons_records (s : Smr) (t : SMRTrigger) (ts : List SMRTrigger) :
    ∃ rest, (s.run (t :: ts)).2 = ⟨s, t, s.onTrigger t⟩ :: rest ∧
      ((rest = [] ∧ (s.run (t :: ts)).1 = (s.onTrigger t).next) ∨
       (rest = ((s.onTrigger t).next.run ts).2 ∧
        (s.run (t :: ts)).1 = ((s.onTrigger t).next.run ts).1)) := by
  rw [Smr.run]
  simp only
  split <;> simp

/-- Every record of a run describes a real iteration on one of the given triggers. -/
theorem run_rec {s : Smr} {ts : List SMRTrigger} {r : SmrRec} (h : r ∈ (s.run ts).2) :
    r.out = r.before.onTrigger r.trig ∧ r.trig ∈ ts := by
  induction ts generalizing s with
  | nil => simp [Smr.run] at h
  | cons t ts ih =>
    obtain ⟨rest, h1, h2⟩ := run_cons_records s t ts
    rw [h1] at h
    rcases List.mem_cons.1 h with rfl | h
    · exact ⟨rfl, by simp⟩
    · rcases h2 with ⟨h2, _⟩ | ⟨h2, _⟩
      · simp [h2] at h
      · rw [h2] at h
        have := ih h
        exact ⟨this.1, List.mem_cons_of_mem _ this.2⟩

end Overlord
