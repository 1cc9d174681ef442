import Verif.Proofs.SmrTrace
import Verif.Spec.SelfCheck

set_option linter.unusedSimpArgs false
set_option linter.unusedVariables false

namespace Overlord.Chk
open Spec

/-- All conditions that hold. -/
structure Ok (s : Smr) : Prop where
  onBlock : ∀ l, s.lock = some l → l.hash ≠ []
  same : LockInv s
  past : LockFromPast s
  nor : PrecommitNor s

theorem ok_init : Ok Smr.init := by
  refine ⟨?_, lockInv_init, ?_, ?_⟩ <;> simp [Smr.init, LockFromPast, PrecommitNor]

theorem ok_wal (w : SMRBase) (h : SoundBase w) : Ok (Smr.init.handleWal w).next := by
  have e : (Smr.init.handleWal w).next = { height := w.height, round := w.round, step := w.step, blockHash := ((w.polc.map Lock.hash).getD []), lock := w.polc } := by
    unfold Smr.handleWal; simp only [Smr.init]; cases w.polc <;> (simp only; split <;> rfl)
  rw [e]
  refine ⟨fun l hl => (h l hl).1, fun l hl => ?_, fun l hl => (h l hl).2, fun _ => ?_⟩
  · simp only at hl ⊢; rw [hl]; rfl
  · simp only
    cases hp : w.polc with
    | none => simp
    | some l => simp [(h l hp).1]

theorem inc_lt {t : SMRTrigger} (hr : InRange t) (hne : t.round ≠ 2 ^ 64 - 1) : inc64 t.round = t.round + 1 := by
  unfold InRange at hr; unfold inc64 U64; omega

theorem ok_step (s : Smr) (t : SMRTrigger) (ht : NotWal t ∧ InRange t ∧ ¬ LastRoundQC t) (h : Ok s) : Ok (s.onTrigger t).next := by
  obtain ⟨hw, hr, hl⟩ := ht
  refine ⟨?_, lockInv_step s t h.same, ?_, ?_⟩
  all_goals
    have hc := smr_case s t
    generalize s.onTrigger t = o at *
  · cases hc with
    | wal w ht hw' => exact absurd ht hw
    | propState s1 ht hs hh hr' hst hne hacc =>
      have hsp := accept_spec hacc
      intro l hl
      simp only at hl
      rcases hsp.2.2.2 with ⟨a, b, _⟩ | ⟨a, b, _⟩
      · exact h.onBlock l (by rw [← a]; exact hl)
      · rw [a] at hl; simp at hl
    | prevoteSame ht hs hh hr' hst =>
      intro l hl
      simp only [updatePolc_lock] at hl
      split at hl
      · simp at hl
      · simp at hl; rw [← hl]; assumption
    | prevoteSkip ht hs hh hr' =>
      intro l hl
      simp only [updatePolc_lock] at hl
      split at hl
      · simp at hl
      · simp at hl; rw [← hl]; assumption
    | newHeight => intro l hl; simp at hl
    | _ => intro l hl; exact h.onBlock l (by simpa using hl)
  · cases hc with
    | wal w ht hw' => exact absurd ht hw
    | newHeight => intro l hl; simp at hl
    | quiet => exact h.past
    | stop => exact h.past
    | brake => exact h.past
    | propTimer ht hs hh hr' hst =>
      intro l hl
      rcases h.past l hl with h1 | ⟨_, h2⟩
      · exact .inl h1
      · rw [hst] at h2; simp [Step.toNat] at h2
    | propState s1 ht hs hh hr' hst hne hacc =>
      have hsp := accept_spec hacc
      intro l hl
      simp only at hl ⊢
      rcases hsp.2.2.2 with ⟨a, b, _⟩ | ⟨a, b, _⟩
      · rcases h.past l (by rw [← a]; exact hl) with h1 | ⟨_, h2⟩
        · left; rw [hsp.2.1]; exact h1
        · rw [hst] at h2; simp [Step.toNat] at h2
      · rw [a] at hl; simp at hl
    | prevoteTimer b ht hs hh hr' hst hb =>
      intro l hl
      rcases h.past l hl with h1 | ⟨h1, _⟩
      · exact .inl h1
      · exact .inr ⟨h1, by simp⟩
    | prevoteSame ht hs hh hr' hst =>
      intro l hl
      simp only [updatePolc_lock] at hl
      split at hl
      · simp at hl
      · simp only [Option.some.injEq] at hl; subst hl
        right; refine ⟨?_, by simp⟩
        simp [Smr.updatePolc]; split <;> simp [hr']
    | prevoteSkip ht hs hh hr' =>
      intro l hl
      simp only [updatePolc_lock] at hl
      split at hl
      · simp at hl
      · simp only [Option.some.injEq] at hl; subst hl
        left
        have := inc_lt hr (fun e => hl ⟨.inl ht, hs, e⟩)
        simp only; omega
    | precommitTimer ht hs hh hr' hst =>
      intro l hl
      rcases h.past l hl with h1 | ⟨h1, _⟩
      · exact .inl h1
      · exact .inr ⟨h1, by simp [Step.toNat]⟩
    | precommitNil ht hs hh hr' hst hn =>
      intro l hl'
      have := inc_lt hr (fun e => hl ⟨.inr ht, hs, e⟩)
      left
      simp only
      rcases h.past l hl' with h1 | ⟨h1, _⟩ <;> omega
    | commit ht hs hh hst hn =>
      intro l hl
      rcases h.past l hl with h1 | ⟨h1, _⟩
      · exact .inl h1
      · exact .inr ⟨h1, by simp [Step.toNat]⟩
    | cont ht hs hh hr' =>
      intro l hl'
      have : inc64 (t.round - 1) = t.round := by unfold InRange at hr; unfold inc64 U64; omega
      left
      simp only
      rcases h.past l hl' with h1 | ⟨h1, _⟩ <;> omega
  · cases hc with
    | wal w ht hw' => exact absurd ht hw
    | quiet => exact h.nor
    | stop => exact h.nor
    | brake => exact h.nor
    | prevoteTimer b ht hs hh hr' hst hb =>
      intro _
      simp only
      rcases hb with ⟨hb, rfl⟩ | ⟨hb, rfl⟩
      · simp [hb]
      · obtain ⟨l, hl⟩ := Option.ne_none_iff_exists'.1 hb
        rw [h.same l hl, hl]; simp [h.onBlock l hl]
    | prevoteSame ht hs hh hr' hst =>
      intro _
      simp only [updatePolc_lock, updatePolc_blockHash]
      split <;> simp_all
    | prevoteSkip ht hs hh hr' =>
      intro _
      simp only [updatePolc_lock, updatePolc_blockHash]
      split <;> simp_all
    | _ => intro hp; simp at hp

theorem ok_run (s : Smr) (ts : List SMRTrigger) (ht : ∀ t ∈ ts, NotWal t ∧ InRange t ∧ ¬ LastRoundQC t) (h : Ok s) :
    Ok (s.run ts).1 ∧ ∀ r ∈ (s.run ts).2, Ok r.before ∧ Ok r.out.next := by
  induction ts generalizing s with
  | nil => simpa [Smr.run] using h
  | cons t ts ih =>
    have hn := ok_step s t (ht t (by simp)) h
    obtain ⟨i1, i2⟩ := ih _ (fun t' h' => ht t' (by simp [h'])) hn
    obtain ⟨rest, h1, h2⟩ := run_cons_records s t ts
    rw [h1]
    rcases h2 with ⟨h2, h3⟩ | ⟨h2, h3⟩
    · subst h2; rw [h3]; exact ⟨hn, fun r hr => by simp at hr; subst hr; exact ⟨h, hn⟩⟩
    · rw [h2, h3]
      refine ⟨i1, fun r hr => ?_⟩
      rcases List.mem_cons.1 hr with rfl | hr
      · exact ⟨h, hn⟩
      · exact i2 r hr

theorem ok_life (ts : List SMRTrigger) (h : OneLife ts) : Ok (Smr.init.run ts).1 ∧ ∀ r ∈ (Smr.init.run ts).2, Ok r.before ∧ Ok r.out.next := by
  cases ts with
  | nil => exact ok_run _ [] (by simp) ok_init
  | cons t ts =>
    have htail : ∀ t' ∈ ts, NotWal t' ∧ InRange t' ∧ ¬ LastRoundQC t' := h.1
    have hn : Ok (Smr.init.onTrigger t).next := by
      rcases h.2 t rfl with ht | ⟨w, h1, h2, h3⟩
      · exact ok_step _ t ht ok_init
      · have : Smr.init.onTrigger t = Smr.init.handleWal w := by simp [Smr.onTrigger, h1, h2]
        rw [this]; exact ok_wal w h3
    obtain ⟨i1, i2⟩ := ok_run _ ts htail hn
    obtain ⟨rest, h1, h2⟩ := run_cons_records Smr.init t ts
    rw [h1]
    rcases h2 with ⟨h2, h3⟩ | ⟨h2, h3⟩
    · subst h2; rw [h3]; exact ⟨hn, fun r hr => by simp at hr; subst hr; exact ⟨ok_init, hn⟩⟩
    · rw [h2, h3]
      refine ⟨i1, fun r hr => ?_⟩
      rcases List.mem_cons.1 hr with rfl | hr
      · exact ⟨ok_init, hn⟩
      · exact i2 r hr

/-- Two machines that differ at most in the proposal hash, and only while there is no lock. -/
def Alike (a b : Smr) : Prop := a = b ∨ (a.lock = none ∧ ∃ x, b = { a with blockHash := x })

theorem alike_step {a b : Smr} (h : Alike a b) (t : SMRTrigger) :
    Alike (a.onTrigger t).next (b.onTrigger t).next ∧ (a.onTrigger t).outs = (b.onTrigger t).outs ∧ (a.onTrigger t).res = (b.onTrigger t).res := by
  rcases h with rfl | ⟨hl, x, rfl⟩
  · exact ⟨.inl rfl, rfl, rfl⟩
  · obtain ⟨hh, rr, st, bh, lk⟩ := a
    simp only at hl; subst hl
    unfold Smr.onTrigger
    cases t.triggerType with
    | newHeight s =>
      simp only [Smr.handleNewHeight, Smr.gotoNewHeight]
      split
      · exact ⟨.inr ⟨rfl, x, rfl⟩, rfl, rfl⟩
      split
      · exact ⟨.inr ⟨rfl, x, rfl⟩, rfl, rfl⟩
      · exact ⟨.inl rfl, rfl, rfl⟩
    | proposal =>
      simp only [Smr.handleProposal, Smr.idle, Smr.acceptProposal]
      split
      · exact ⟨.inr ⟨rfl, x, rfl⟩, rfl, rfl⟩
      split
      · exact ⟨.inr ⟨rfl, x, rfl⟩, rfl, rfl⟩
      split
      · exact ⟨.inr ⟨rfl, x, rfl⟩, rfl, rfl⟩
      split
      · exact ⟨.inr ⟨rfl, x, rfl⟩, rfl, rfl⟩
      · cases t.lockRound <;> exact ⟨.inl rfl, rfl, rfl⟩
    | prevoteQC =>
      simp only [Smr.handlePrevote, Smr.idle, Smr.updatePolc, Smr.gotoNextRound]
      split
      · exact ⟨.inr ⟨rfl, x, rfl⟩, rfl, rfl⟩
      split
      · exact ⟨.inr ⟨rfl, x, rfl⟩, rfl, rfl⟩
      split
      · split
        · exact ⟨.inr ⟨rfl, x, rfl⟩, rfl, rfl⟩
        · exact ⟨.inl rfl, rfl, rfl⟩
      split
      · exact ⟨.inr ⟨rfl, x, rfl⟩, rfl, rfl⟩
      · by_cases h1 : t.hash = [] <;> by_cases h2 : t.round > rr <;> simp only [h1, h2, if_true, if_false] <;> exact ⟨.inl rfl, trivial, trivial⟩
    | precommitQC =>
      simp only [Smr.handlePrecommit, Smr.idle, Smr.gotoNextRound]
      repeat' split
      all_goals exact ⟨.inr ⟨rfl, x, rfl⟩, rfl, rfl⟩
    | brakeTimeout =>
      simp only [Smr.handleBrakeTimeout, Smr.idle]
      repeat' split
      all_goals exact ⟨.inr ⟨rfl, x, rfl⟩, rfl, rfl⟩
    | continueRound =>
      simp only [Smr.handleContinueRound, Smr.idle, Smr.gotoNextRound]
      repeat' split
      all_goals exact ⟨.inr ⟨rfl, x, rfl⟩, rfl, rfl⟩
    | walInfo =>
      simp only
      cases t.walInfo with
      | none => exact ⟨.inr ⟨rfl, x, rfl⟩, rfl, rfl⟩
      | some w =>
        obtain ⟨wh, wr, ws, wp⟩ := w
        cases wp <;> cases ws <;> first | exact ⟨.inl rfl, rfl, rfl⟩ | exact ⟨.inr ⟨rfl, x, rfl⟩, rfl, rfl⟩
    | stop => exact ⟨.inr ⟨rfl, x, rfl⟩, rfl, rfl⟩

theorem alike_run {a b : Smr} (h : Alike a b) (ts : List SMRTrigger) :
    (a.run ts).2.map (fun r => (r.trig, r.out.outs, r.out.res)) = (b.run ts).2.map (fun r => (r.trig, r.out.outs, r.out.res)) := by
  induction ts generalizing a b with
  | nil => rfl
  | cons t ts ih =>
    obtain ⟨h1, h2, h3⟩ := alike_step h t
    simp only [Smr.run]
    rw [← h3]
    cases hres : (a.onTrigger t).res with
    | ok => simp [h2, ← h3, hres, ih h1]
    | err e => simp [h2, ← h3, hres, ih h1]
    | ended => simp [h2, ← h3, hres]
    | panic => simp [h2, ← h3, hres]

end Overlord.Chk
