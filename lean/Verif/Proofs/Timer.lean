import Verif.Spec.Timer
import Verif.Proofs.Smr

/-! Helper lemmas about the timer and its composition with the voting state machine. -/

set_option linter.unusedSimpArgs false

namespace Overlord
open Spec

/-- Position of the machine as a triple. -/
def Smr.at3 (s : Smr) : Nat × Nat × Step := (s.height, s.round, s.step)

def IsNRI (e : SMREvent) : Prop := ∃ h r, backs e = some (h, r, .propose)

theorem isNRI_iff (e : SMREvent) :
    IsNRI e ↔ ∃ h r a b c d f, e = .newRoundInfo h r a b c d f := by
  constructor
  · rintro ⟨h, r, he⟩
    cases e <;> simp [backs] at he
    exact ⟨_, _, _, _, _, _, _, rfl⟩
  · rintro ⟨h, r, a, b, c, d, f, rfl⟩
    exact ⟨h, r, rfl⟩

/-- A trigger that can be in the channel of the state machine after the start. -/
def TrigOk (t : SMRTrigger) : Prop :=
  StateInput t ∨ (t.source = .timer ∧ (t.triggerType = .proposal ∨ t.triggerType = .prevoteQC ∨
    t.triggerType = .precommitQC ∨ t.triggerType = .brakeTimeout))

theorem TrigOk.notWal {t : SMRTrigger} (h : TrigOk t) : NotWal t := by
  rcases h with ⟨_, h⟩ | ⟨_, h⟩ <;> intro hc <;> rw [hc] at h <;> simp at h

/-- The events of an `SmrOut`, as the timer sees them. -/
def SmrOut.events (o : SmrOut) : List SMREvent := o.outs.map Out.event

inductive EvCase (s : Smr) (o : SmrOut) : Prop
  | quiet (hn : o.next = s) (ho : o.events = [])
  | commit (h : Hash) (hst : o.next.step = .commit) (hh : o.next.height = s.height)
      (hr : o.next.round = s.round) (ho : o.events = [.commit h])
  | newRound (e : SMREvent) (hb : backs e = some o.next.at3) (hst : o.next.step = .propose)
      (hh : s.height ≤ o.next.height) (ho : o.events = [e])
  | skip (n e : SMREvent) (hn : backs n = some (o.next.height, o.next.round, .propose))
      (hb : backs e = some o.next.at3) (hst : o.next.step = .precommit)
      (hh : s.height = o.next.height) (ho : o.events = [n, e])
  | same (e : SMREvent) (hb : backs e = some o.next.at3) (hst : o.next.step ≠ .propose)
      (hst' : o.next.step ≠ .commit)
      (hh : o.next.height = s.height) (hr : o.next.round = s.round) (ho : o.events = [e])
  | brake (e : SMREvent) (hn : o.next = s) (hb : backs e = some (s.height, s.round, .brake))
      (ho : o.events = [e])

theorem ev_case (s : Smr) (t : SMRTrigger) (ht : TrigOk t) :
    EvCase s (s.onTrigger t) := by
  have h := smr_case s t
  generalize s.onTrigger t = o at *
  cases h with
  | quiet res => exact .quiet rfl rfl
  | newHeight st _ hs hh => exact .newRound _ rfl rfl (by simp only; omega) rfl
  | propTimer _ hs hh hr hst => exact .same _ rfl (by simp) (by simp) rfl rfl rfl
  | propState s1 _ hs hh hr hst hne hacc =>
    have := accept_spec hacc
    exact .same _ rfl (by simp) (by simp) this.1 this.2.1 rfl
  | prevoteTimer b _ hs hh hr hst hb => exact .same _ rfl (by simp) (by simp) rfl rfl rfl
  | prevoteSame _ hs hh hr hst =>
    exact .same _ (by simp [backs, Smr.at3, updatePolc_height, updatePolc_round, Out.event])
      (by simp) (by simp) (updatePolc_height ..) (updatePolc_round ..) rfl
  | prevoteSkip _ hs hh hr =>
    exact .skip _ _ (by simp [backs, updatePolc_height]; rfl)
      (by simp [backs, Smr.at3, updatePolc_height]; rfl) rfl (updatePolc_height ..).symm rfl
  | precommitTimer _ hs hh hr hst => exact .same _ rfl (by simp) (by simp) rfl rfl rfl
  | precommitNil _ hs hh hr hst hn => exact .newRound _ rfl rfl (Nat.le_refl _) rfl
  | commit _ hs hh hst hn => exact .commit _ rfl rfl rfl rfl
  | brake _ hs hh hr => exact .brake _ rfl rfl rfl
  | cont _ hs hh hr => exact .newRound _ rfl rfl (Nat.le_refl _) rfl
  | wal w hw _ => exact absurd hw ht.notWal
  | stop hs =>
    rcases ht with ⟨_, h⟩ | ⟨_, h⟩ <;> rw [hs] at h <;> simp at h

/-- The timeout of the current position always makes the machine do something. -/
theorem timeout_acts (s : Smr) (t : SMRTrigger) (hst : s.step ≠ .commit)
    (ht : IsTimeout t s.height s.round s.step) : (s.onTrigger t).events ≠ [] := by
  obtain ⟨h1, h2, h3, h4, h5, h6, h7⟩ := ht
  unfold Smr.onTrigger
  cases hs : s.step <;> simp only [hs, timeoutKind] at h2 hst <;> rw [h2] <;>
    simp_all [Smr.handleProposal, Smr.handlePrevote, Smr.handlePrecommit, Smr.handleBrakeTimeout,
      SmrOut.events, Smr.idle, Step.toNat]

def NoNRI (l : List SMREvent) : Prop := ∀ e ∈ l, ¬ IsNRI e

/-- The expiry of a timeout of the current position will not be filtered out. -/
def TGood (s : TimerSys) : Prop :=
  s.smr.step = .propose → s.timer.round = s.smr.round ∧ NoNRI s.evtQ

/-- Where the timer of the current position is. -/
inductive Tok (s : TimerSys) : Prop
  | trig (t : SMRTrigger) (ht : t ∈ s.trigQ) (hi : IsTimeout t s.smr.height s.smr.round s.smr.step)
  | evt (e : SMREvent) (l1 l2 : List SMREvent) (hb : backs e = some s.smr.at3)
      (hq : s.evtQ = l1 ++ e :: l2) (hn : s.smr.step = .propose → NoNRI l2)
  | armed (e : SMREvent) (d : Nat) (hb : backs e = some s.smr.at3) (ha : (e, d) ∈ s.armed)
      (hg : TGood s)
  | notify (e : SMREvent) (hb : backs e = some s.smr.at3) (ha : e ∈ s.notify) (hg : TGood s)

structure TInv (s : TimerSys) : Prop where
  trigs : ∀ t ∈ s.trigQ, TrigOk t
  noStop : ∀ e ∈ s.evtQ, e ≠ .stop
  th : s.timer.height ≤ s.smr.height
  eh : ∀ e ∈ s.evtQ, ∀ p, backs e = some p → p.1 ≤ s.smr.height
  tok : s.smr.step ≠ .commit → Tok s

theorem setTimer_nri (t : Timer) (h r a b c d f) :
    (t.setTimer (.newRoundInfo h r a b c d f)).1 = t.onNewRound h r d f := rfl

theorem onNewRound_height (t : Timer) (h r d f) :
    (t.onNewRound h r d f).height = max t.height h := by
  simp only [Timer.onNewRound]; split <;> omega

theorem onNewRound_round (t : Timer) (h r d f) : (t.onNewRound h r d f).round = r := rfl

theorem setTimer_other (t : Timer) (e : SMREvent) (hn : ¬ IsNRI e) : (t.setTimer e).1 = t := by
  cases e <;> simp [Timer.setTimer]
  exact absurd ⟨_, _, rfl⟩ hn

theorem setTimer_arms (t : Timer) (e : SMREvent) (p) (hb : backs e = some p) :
    ∃ d, (t.setTimer e).2 = some (e, d) := by
  cases e <;> simp [backs] at hb <;> simp [Timer.setTimer, TimerConfig.getTimeout]

theorem trigger_timeout (t : Timer) (e : SMREvent) (h r : Nat) (st : Step)
    (hb : backs e = some (h, r, st)) (hh : t.height ≤ h) (hr : st = .propose → t.round ≤ r) :
    ∃ x, t.trigger e = some x ∧ IsTimeout x h r st := by
  cases e <;> simp [backs] at hb <;> obtain ⟨rfl, rfl, rfl⟩ := hb
  · refine ⟨_, by simp only [Timer.trigger]; rw [if_neg]; have := hr rfl; omega, ?_⟩
    simp [IsTimeout, timeoutTrigger, timeoutKind]
  all_goals
    refine ⟨_, by simp only [Timer.trigger]; rw [if_neg]; omega, ?_⟩
    simp [IsTimeout, timeoutTrigger, timeoutKind]

theorem trigger_ok (t : Timer) (e : SMREvent) (x) (h : t.trigger e = some x) : TrigOk x := by
  cases e <;> simp [Timer.trigger] at h
  all_goals
    obtain ⟨_, rfl⟩ := h
    right
    simp [timeoutTrigger]

theorem mem_eraseIdx_or {α} {l : List α} {i : Nat} {x y : α} (h : l[i]? = some y) (hx : x ∈ l) :
    x = y ∨ x ∈ l.eraseIdx i := by
  induction l generalizing i with
  | nil => simp at hx
  | cons a l ih =>
    cases i with
    | zero =>
      simp at h
      subst h
      simpa using hx
    | succ i =>
      simp at h
      rcases List.mem_cons.1 hx with rfl | hx
      · right; simp
      · rcases ih h hx with h1 | h1
        · exact .inl h1
        · right; simp [h1]

theorem act_inv {s s' : TimerSys} {a : TAct} (hi : TInv s) (ha : ActOk a)
    (hs : s.act a = some s') : TInv s' := by
  obtain ⟨h1, h2, h3, h4, h5⟩ := hi
  cases a with
  | input t =>
    simp only [TimerSys.act, Option.some.injEq] at hs
    subst hs
    refine ⟨?_, h2, h3, h4, ?_⟩
    · intro x hx
      simp at hx
      rcases hx with hx | rfl
      · exact h1 _ hx
      · exact .inl ha
    · intro hc
      cases h5 hc with
      | trig t ht hi => exact .trig t (by simp [ht]) hi
      | evt e l1 l2 hb hq hn => exact .evt e l1 l2 hb hq hn
      | armed e d hb ha hg => exact .armed e d hb ha hg
      | notify e hb ha hg => exact .notify e hb ha hg
  | smr =>
    simp only [TimerSys.act] at hs
    split at hs
    · simp at hs
    rename_i t q hq
    have hev := ev_case s.smr t (h1 t (by simp [hq]))
    have hact := timeout_acts s.smr t
    have key : ∀ o, o = s.smr.onTrigger t →
        some { s with smr := o.next, trigQ := q, evtQ := s.evtQ ++ o.events } = some s' → TInv s' := by
      intro o ho hs
      rw [← ho] at hev hact
      simp only [Option.some.injEq] at hs
      subst hs
      have hq' : ∀ t ∈ q, TrigOk t := fun x hx => h1 x (by simp [hq, hx])
      cases hev with
      | quiet hn hoo =>
        refine ⟨hq', by simpa [hoo] using h2, by simpa [hn] using h3, by simpa [hoo, hn] using h4, ?_⟩
        intro hc
        simp only [hn] at hc
        simp only [hn, hoo, List.append_nil]
        cases h5 hc with
        | trig x hx hi =>
          rw [hq] at hx
          rcases List.mem_cons.1 hx with rfl | hx
          · exact absurd hoo (hact hc hi)
          · exact .trig x hx hi
        | evt e l1 l2 hb hq hn => exact .evt e l1 l2 hb hq hn
        | armed e d hb ha hg => exact .armed e d hb ha hg
        | notify e hb ha hg => exact .notify e hb ha hg
      | commit h hst hh hr hoo =>
        refine ⟨hq', ?_, by simpa [hh] using h3, ?_, fun hc => absurd hst hc⟩
        · intro e he
          simp [hoo] at he
          rcases he with he | rfl
          · exact h2 e he
          · simp
        · intro e he p hp
          simp [hoo] at he
          rcases he with he | rfl
          · simpa [hh] using h4 e he p hp
          · simp [backs] at hp
      | newRound e hb hst hh hoo =>
        refine ⟨hq', ?_, Nat.le_trans h3 hh, ?_, fun _ => .evt e s.evtQ [] hb (by simp [hoo]) (by simp [NoNRI])⟩
        · intro x he
          simp [hoo] at he
          rcases he with he | rfl
          · exact h2 x he
          · rintro rfl; simp [backs] at hb
        · intro x he p hp
          simp [hoo] at he
          rcases he with he | rfl
          · exact Nat.le_trans (h4 x he p hp) hh
          · rw [hb] at hp; simp [Smr.at3] at hp; subst hp; simp
      | skip n e hn hb hst hh hoo =>
        refine ⟨hq', ?_, hh ▸ h3, ?_, fun _ => .evt e (s.evtQ ++ [n]) [] hb (by simp [hoo]) (by simp [NoNRI])⟩
        · intro x he
          simp [hoo] at he
          rcases he with he | rfl | rfl
          · exact h2 x he
          · rintro rfl; simp [backs] at hn
          · rintro rfl; simp [backs] at hb
        · intro x he p hp
          simp [hoo] at he
          rcases he with he | rfl | rfl
          · exact hh ▸ (h4 x he p hp)
          · rw [hn] at hp; simp at hp; subst hp; simp
          · rw [hb] at hp; simp [Smr.at3] at hp; subst hp; simp
      | same e hb hst hst' hh hr hoo =>
        refine ⟨hq', ?_, hh ▸ h3, ?_, fun _ => .evt e s.evtQ [] hb (by simp [hoo]) (by simp [NoNRI])⟩
        · intro x he
          simp [hoo] at he
          rcases he with he | rfl
          · exact h2 x he
          · rintro rfl; simp [backs] at hb
        · intro x he p hp
          simp [hoo] at he
          rcases he with he | rfl
          · exact hh ▸ (h4 x he p hp)
          · rw [hb] at hp; simp [Smr.at3] at hp; subst hp; simp
      | brake b hn hb hoo =>
        have hbn : ¬ IsNRI b := by
          rintro ⟨h, r, hx⟩; rw [hb] at hx; simp at hx
        refine ⟨hq', ?_, by simpa [hn] using h3, ?_, ?_⟩
        · intro x he
          simp [hoo] at he
          rcases he with he | rfl
          · exact h2 x he
          · rintro rfl; simp [backs] at hb
        · intro x he p hp
          simp [hoo] at he
          simp only [hn]
          rcases he with he | rfl
          · exact h4 x he p hp
          · rw [hb] at hp; simp at hp; subst hp; simp
        · intro hc
          simp only [hn] at hc
          simp only [hn, hoo]
          have hgood : TGood s → TGood { s with trigQ := q, evtQ := s.evtQ ++ [b] } := by
            intro hg hp
            refine ⟨(hg hp).1, ?_⟩
            intro x hx
            simp at hx
            rcases hx with hx | rfl
            · exact (hg hp).2 x hx
            · exact hbn
          cases h5 hc with
          | trig x hx hi =>
            rw [hq] at hx
            rcases List.mem_cons.1 hx with rfl | hx
            · -- the brake timeout itself: a new one is ordered
              by_cases hbs : s.smr.step = .brake
              · exact .evt b s.evtQ [] (by rw [hb, ← hbs]; rfl) rfl (by simp [NoNRI])
              · exfalso
                obtain ⟨g1, g2, g3, g4, g5, g6, g7⟩ := hi
                have hnext : (s.smr.onTrigger x).next = s.smr := by rw [← ho]; exact hn
                revert hnext
                unfold Smr.onTrigger
                cases hs : s.smr.step <;> simp only [hs, timeoutKind] at g2 hc hbs <;> rw [g2] <;>
                  simp_all [Smr.handleProposal, Smr.handlePrevote, Smr.handlePrecommit,
                    Smr.handleBrakeTimeout, SmrOut.events, Smr.idle, Step.toNat] <;>
                  (intro hx; have := congrArg Smr.step hx; simp_all)
            · exact .trig x hx hi
          | evt e l1 l2 hb' hq hn' =>
            exact .evt e l1 (l2 ++ [b]) hb' (by simp [hq]) (fun hp x hx => by
              simp at hx
              rcases hx with hx | rfl
              · exact hn' hp x hx
              · exact hbn)
          | armed e d hb' ha hg => exact .armed e d hb' ha (hgood hg)
          | notify e hb' ha hg => exact .notify e hb' ha (hgood hg)
    split at hs
    · exact key _ rfl hs
    · exact key _ rfl hs
    · simp at hs
    · simp at hs
  | set =>
    simp only [TimerSys.act] at hs
    split at hs
    · simp at hs
    · simp at hs
    rename_i e q hne hq
    simp only [Option.some.injEq] at hs
    subst hs
    have hth : (s.timer.setTimer e).1.height ≤ s.smr.height := by
      by_cases hn : IsNRI e
      · obtain ⟨h, r, a, b, c, d, f, rfl⟩ := (isNRI_iff e).1 hn
        rw [setTimer_nri, onNewRound_height]
        have := h4 (.newRoundInfo h r a b c d f) (by rw [hq]; simp) _ rfl
        simp at this
        omega
      · rw [setTimer_other _ _ hn]; exact h3
    refine ⟨h1, fun x hx => h2 x (by simp [hq, hx]), hth, fun x hx => h4 x (by simp [hq, hx]), ?_⟩
    intro hc
    have hgood : TGood s → TGood { s with timer := (s.timer.setTimer e).1, evtQ := q, armed := s.armed ++ (s.timer.setTimer e).2.toList } := by
      intro hg hp
      have := hg hp
      have hn : ¬ IsNRI e := this.2 e (by simp [hq])
      simp only [setTimer_other _ _ hn]
      exact ⟨this.1, fun x hx => this.2 x (by simp [hq, hx])⟩
    cases h5 hc with
    | trig t ht hi => exact .trig t ht hi
    | evt x l1 l2 hb hq' hn =>
      rw [hq] at hq'
      cases l1 with
      | nil =>
        simp at hq'
        obtain ⟨rfl, rfl⟩ := hq'
        obtain ⟨d, hd⟩ := setTimer_arms s.timer e _ hb
        refine .armed e d hb (by simp [hd]) ?_
        intro hp
        have hnri : IsNRI e := ⟨s.smr.height, s.smr.round, by rw [hb, ← hp]; rfl⟩
        obtain ⟨h, r, a, b, c, d, f, rfl⟩ := (isNRI_iff e).1 hnri
        simp [backs, Smr.at3] at hb
        simp only [setTimer_nri, onNewRound_round]
        exact ⟨hb.2.1, hn hp⟩
      | cons y l1 =>
        simp at hq'
        exact .evt x l1 l2 hb hq'.2 hn
    | armed x d hb ha hg => exact .armed x d hb (by simp [ha]) (hgood hg)
    | notify x hb ha hg => exact .notify x hb ha (hgood hg)
  | expire i =>
    simp only [TimerSys.act] at hs
    split at hs
    · simp at hs
    rename_i x hx
    simp only [Option.some.injEq] at hs
    subst hs
    refine ⟨h1, h2, h3, h4, fun hc => ?_⟩
    cases h5 hc with
    | trig t ht hi => exact .trig t ht hi
    | evt e l1 l2 hb hq hn => exact .evt e l1 l2 hb hq hn
    | armed e d hb ha hg =>
      rcases mem_eraseIdx_or hx ha with rfl | hm
      · exact .notify e hb (by simp) hg
      · exact .armed e d hb hm hg
    | notify e hb ha hg => exact .notify e hb (by simp [ha]) hg
  | fire i =>
    simp only [TimerSys.act] at hs
    split at hs
    · simp at hs
    rename_i x hx
    simp only [Option.some.injEq] at hs
    subst hs
    refine ⟨?_, h2, h3, h4, fun hc => ?_⟩
    · intro t ht
      simp at ht
      rcases ht with ht | ht
      · exact h1 t ht
      · exact trigger_ok _ _ _ ht
    cases h5 hc with
    | trig t ht hi => exact .trig t (by simp [ht]) hi
    | evt e l1 l2 hb hq hn => exact .evt e l1 l2 hb hq hn
    | armed e d hb ha hg => exact .armed e d hb ha hg
    | notify e hb ha hg =>
      rcases mem_eraseIdx_or hx ha with rfl | hm
      · obtain ⟨t, ht, hi⟩ := trigger_timeout s.timer e _ _ _ hb h3 (fun hp => by
          have := (hg hp).1; omega)
        exact .trig t (by simp [ht]) hi
      · exact .notify e hb hm hg

theorem boot_inv (i c w) (hw : WalOk w) : TInv (TimerSys.boot i c w) := by
  cases w with
  | none =>
    refine ⟨by simp [TimerSys.boot], by simp [TimerSys.boot], ?_, by simp [TimerSys.boot], ?_⟩
    · simp [TimerSys.boot, Timer.new, INIT_HEIGHT]
    · simp [TimerSys.boot, Smr.init]
  | some w =>
    simp only [WalOk] at hw
    obtain ⟨h, r, st, p⟩ := w
    cases st <;> simp at hw
    all_goals
      refine ⟨by simp [TimerSys.boot], by simp [TimerSys.boot, Smr.handleWal, Smr.timerEventAfterWal, Out.event], ?_, ?_, ?_⟩
      · simp [TimerSys.boot, Timer.new, INIT_HEIGHT]
      · simp [TimerSys.boot, Smr.handleWal, Smr.timerEventAfterWal, Out.event, backs]
      · intro _
        refine .evt _ [] [] ?_ rfl (by simp [NoNRI])
        simp [TimerSys.boot, Smr.handleWal, Smr.timerEventAfterWal, Out.event, backs, Smr.at3]

theorem reach_inv {i c w s} (hw : WalOk w) (h : TReach i c w s) : TInv s := by
  induction h with
  | boot => exact boot_inv i c w hw
  | step a _ ha hs ih => exact act_inv ih ha hs

end Overlord
