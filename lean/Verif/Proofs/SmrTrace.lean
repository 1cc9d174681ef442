import Verif.Proofs.Smr

set_option linter.unusedSimpArgs false

namespace Overlord
open Spec

/-- The trigger keeps positions monotone: not a restart, in `u64` range, not the very last round. -/
def Tame (t : SMRTrigger) : Prop := NotWal t ∧ InRange t ∧ ¬ LastRoundQC t

theorem run_pos_le (s : Smr) (ts : List SMRTrigger) (h : ∀ t ∈ ts, Tame t) :
    Pos.le (pos s) (pos (s.run ts).1) ∧
    (∀ r ∈ (s.run ts).2, Pos.le (pos s) (pos r.before) ∧
      Pos.le (pos r.before) (pos r.out.next) ∧ Pos.le (pos r.out.next) (pos (s.run ts).1)) ∧
    (s.run ts).2.Pairwise (fun a b => Pos.le (pos a.out.next) (pos b.before)) := by
  induction ts generalizing s with
  | nil => simp [Smr.run, Pos.le_refl]
  | cons t ts ih =>
    have ht := h t (by simp)
    have hp := step_pos s t ht.1 ht.2.1 ht.2.2
    have ih' := ih (s.onTrigger t).next (fun t' h' => h t' (by simp [h']))
    obtain ⟨rest, h1, h2⟩ := run_cons_records s t ts
    rw [h1]
    rcases h2 with ⟨h2, h3⟩ | ⟨h2, h3⟩
    · subst h2
      rw [h3]
      simp [hp, Pos.le_refl]
    · rw [h2, h3]
      obtain ⟨i1, i2, i3⟩ := ih'
      refine ⟨Pos.le_trans hp i1, ?_, ?_⟩
      · intro r hr
        rcases List.mem_cons.1 hr with rfl | hr
        · exact ⟨Pos.le_refl _, hp, i1⟩
        · obtain ⟨j1, j2, j3⟩ := i2 r hr
          exact ⟨Pos.le_trans hp j1, j2, j3⟩
      · rw [List.pairwise_cons]
        exact ⟨fun b hb => (i2 b hb).1, i3⟩

/-- Position of a vote. -/
def vpos (v : OVote) : Pos := ⟨v.height, v.round, v.kind.toStep.toNat⟩

theorem run_votes (s : Smr) (ts : List SMRTrigger) (h : ∀ t ∈ ts, Tame t) :
    (∀ v ∈ votes (s.run ts).2, Pos.lt (pos s) (vpos v) ∧ Pos.le (vpos v) (pos (s.run ts).1)) ∧
    (votes (s.run ts).2).Pairwise (fun a b => Pos.lt (vpos a) (vpos b)) := by
  induction ts generalizing s with
  | nil => simp [Smr.run, votes]
  | cons t ts ih =>
    have ht := h t (by simp)
    have hp := step_pos s t ht.1 ht.2.1 ht.2.2
    have hv := step_vote s t ht.2.1 ht.2.2
    have htail : ∀ t' ∈ ts, Tame t' := fun t' h' => h t' (by simp [h'])
    have ih' := ih (s.onTrigger t).next htail
    have hle := (run_pos_le (s.onTrigger t).next ts htail).1
    obtain ⟨rest, h1, h2⟩ := run_cons_records s t ts
    have hfirst : (votesIn (s.onTrigger t)).Pairwise (fun a b => Pos.lt (vpos a) (vpos b)) := by
      cases hvs : votesIn (s.onTrigger t) with
      | nil => simp
      | cons a l =>
        have := (hv a (by simp [hvs])).1
        rw [hvs] at this
        rw [this]; simp
    rw [h1]
    rcases h2 with ⟨h2, h3⟩ | ⟨h2, h3⟩
    · subst h2
      rw [h3]
      simp only [votes, List.flatMap_cons, List.flatMap_nil, List.append_nil]
      refine ⟨fun v hv' => ?_, hfirst⟩
      have := hv v hv'
      refine ⟨this.2.1, ?_⟩
      rw [this.2.2]; exact Pos.le_refl _
    · rw [h2, h3]
      simp only [votes, List.flatMap_cons]
      refine ⟨fun v hv' => ?_, ?_⟩
      · rcases List.mem_append.1 hv' with hv' | hv'
        · have := hv v hv'
          refine ⟨this.2.1, ?_⟩
          have e := this.2.2
          rw [show vpos v = pos (s.onTrigger t).next from e.symm]
          exact hle
        · have := ih'.1 v hv'
          exact ⟨Pos.lt_of_le_of_lt hp this.1, this.2⟩
      · rw [List.pairwise_append]
        refine ⟨hfirst, ih'.2, fun a ha b hb => ?_⟩
        have h1 := hv a ha
        have h2 := ih'.1 b hb
        have e := h1.2.2
        rw [show vpos a = pos (s.onTrigger t).next from e.symm]
        exact h2.1

/-- As long as a lock is held the current proposal is the locked one. -/
def LockInv (s : Smr) : Prop := ∀ l, s.lock = some l → s.blockHash = l.hash

theorem lockInv_init : LockInv Smr.init := by simp [LockInv, Smr.init]

theorem lockInv_step (s : Smr) (t : SMRTrigger) (h : LockInv s) : LockInv (s.onTrigger t).next := by
  have hc := smr_case s t
  generalize s.onTrigger t = o at *
  cases hc with
  | wal w ht hw =>
    unfold Smr.handleWal
    simp only
    split <;> (intro l hl; simp only at hl; simp [hl])
  | propState s1 ht hs hh hr' hst hne hacc =>
    have hsp := accept_spec hacc
    intro l hl
    simp only at hl ⊢
    rcases hsp.2.2.2 with ⟨a, b, _⟩ | ⟨a, b, _⟩
    · rw [b]; exact h l (by rw [← a]; exact hl)
    · rw [a] at hl; simp at hl
  | prevoteSame ht hs hh hr' hst =>
    intro l hl
    simp only [updatePolc_lock, updatePolc_blockHash] at hl ⊢
    split at hl
    · simp at hl
    · simp at hl; rw [← hl]
  | prevoteSkip ht hs hh hr' =>
    intro l hl
    simp only [updatePolc_lock, updatePolc_blockHash] at hl ⊢
    split at hl
    · simp at hl
    · simp at hl; rw [← hl]
  | prevoteTimer b ht hs hh hr hst hb =>
    intro l hl
    simp only at hl ⊢
    rcases hb with ⟨hb, _⟩ | ⟨_, hb⟩
    · rw [hb] at hl; simp at hl
    · rw [hb]; exact h l hl
  | newHeight => intro l hl; simp at hl
  | _ => intro l hl; exact h l (by simpa using hl)

theorem lockInv_run (s : Smr) (ts : List SMRTrigger) (h : LockInv s) :
    LockInv (s.run ts).1 ∧ ∀ r ∈ (s.run ts).2, LockInv r.before := by
  induction ts generalizing s with
  | nil => simpa [Smr.run] using h
  | cons t ts ih =>
    have hn := lockInv_step s t h
    obtain ⟨i1, i2⟩ := ih _ hn
    obtain ⟨rest, h1, h2⟩ := run_cons_records s t ts
    rw [h1]
    rcases h2 with ⟨h2, h3⟩ | ⟨h2, h3⟩
    · subst h2; rw [h3]; simpa using ⟨hn, h⟩
    · rw [h2, h3]
      refine ⟨i1, fun r hr => ?_⟩
      rcases List.mem_cons.1 hr with rfl | hr
      · exact h
      · exact i2 r hr

end Overlord
