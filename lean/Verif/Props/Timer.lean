import Verif.Proofs.TimerFair

/-!
# C26–C28: the timer
-/

set_option linter.unusedSimpArgs false

namespace Overlord
open Spec

/-! ## C26 — timeouts grow with the round and are capped -/

/-- The timeout the timer arms when the round in force is the round `r` of the event, `r < 2^32`, and
no product overflows: the configured share of the interval, times `2^min(r,5)`, except that a brake
timeout is not scaled. For a `NewRoundInfo` the configuration is the one after the event. -/
theorem C26_duration (t : Timer) (e : SMREvent) (h r : Nat) (st : Step)
    (hb : backs e = some (h, r, st)) (hr : r < 2 ^ 32)
    (hcur : st = .prevote ∨ st = .precommit → t.round = r)
    (hc : ConfigOk (t.setTimer e).1.config) :
    (t.setTimer e).2 =
      some (e, share (t.setTimer e).1.config st * (if st = .brake then 1 else 2 ^ min r 5)) := by
  have hcoef : ∀ t : Timer, t.round = r → t.coef = 2 ^ min r 5 := by
    intro t ht
    simp only [Timer.coef, ht, U32, MAX_TIMEOUT_COEF]
    rw [Nat.mod_eq_of_lt hr]
    congr 1
    split <;> omega
  obtain ⟨c1, c2, c3, c4⟩ := hc
  cases e <;> simp only [backs, Option.some.injEq, Prod.mk.injEq, reduceCtorEq] at hb <;>
    obtain ⟨rfl, rfl, rfl⟩ := hb
  · simp only [Timer.setTimer] at c1 ⊢
    simp only [TimerConfig.getTimeout, TimerConfig.ratio, U64, Nat.mod_eq_of_lt c1, share,
      Option.map_some]
    rw [hcoef _ rfl]; simp
  · simp only [Timer.setTimer] at c2 ⊢
    simp only [TimerConfig.getTimeout, TimerConfig.ratio, U64, Nat.mod_eq_of_lt c2, share,
      Option.map_some]
    rw [hcoef _ (hcur (.inl rfl))]; simp
  · simp only [Timer.setTimer] at c3 ⊢
    simp only [TimerConfig.getTimeout, TimerConfig.ratio, U64, Nat.mod_eq_of_lt c3, share,
      Option.map_some]
    rw [hcoef _ (hcur (.inr rfl))]; simp
  · simp only [Timer.setTimer] at c4 ⊢
    simp only [TimerConfig.getTimeout, TimerConfig.ratio, U64, Nat.mod_eq_of_lt c4, share,
      Option.map_some]
    simp

example : backs (.prevoteVote 3 7 [1] none) = some (3, 7, .prevote) ∧
    ConfigOk (({ Timer.new 3000 none with round := 7 } : Timer).setTimer
      (.prevoteVote 3 7 [1] none)).1.config ∧
    (({ Timer.new 3000 none with round := 7 } : Timer).setTimer (.prevoteVote 3 7 [1] none)).2 =
      some (.prevoteVote 3 7 [1] none, 3000 * 32) := by
  refine ⟨rfl, by unfold ConfigOk; decide, by decide⟩

/-- With one configuration, the timeout of a propose, prevote or precommit step never shrinks when
the round grows. -/
theorem C26_monotone (t1 t2 : Timer) (e1 e2 : SMREvent) (h1 h2 r1 r2 d1 d2 : Nat) (st : Step)
    (hb1 : backs e1 = some (h1, r1, st)) (hb2 : backs e2 = some (h2, r2, st))
    (hr : r1 ≤ r2) (hr2 : r2 < 2 ^ 32)
    (hcur1 : st = .prevote ∨ st = .precommit → t1.round = r1)
    (hcur2 : st = .prevote ∨ st = .precommit → t2.round = r2)
    (hsame : (t1.setTimer e1).1.config = (t2.setTimer e2).1.config)
    (hc : ConfigOk (t1.setTimer e1).1.config)
    (hd1 : (t1.setTimer e1).2 = some (e1, d1)) (hd2 : (t2.setTimer e2).2 = some (e2, d2)) :
    d1 ≤ d2 := by
  have a1 := C26_duration t1 e1 h1 r1 st hb1 (by omega) hcur1 hc
  have a2 := C26_duration t2 e2 h2 r2 st hb2 hr2 hcur2 (hsame ▸ hc)
  rw [hd1] at a1
  rw [hd2, ← hsame] at a2
  simp only [Option.some.injEq, Prod.mk.injEq, true_and] at a1 a2
  subst a1 a2
  refine Nat.mul_le_mul_left _ ?_
  split
  · exact Nat.le_refl _
  · exact Nat.pow_le_pow_right (by omega) (by omega)

example : ∃ d1 d2, ((Timer.new 3000 none).setTimer (.newRoundInfo 1 2 none none (.chokeQC 1) none none)).2
      = some (.newRoundInfo 1 2 none none (.chokeQC 1) none none, d1) ∧
    ((Timer.new 3000 none).setTimer (.newRoundInfo 1 9 none none (.chokeQC 8) none none)).2
      = some (.newRoundInfo 1 9 none none (.chokeQC 8) none none, d2) ∧ d1 < d2 :=
  ⟨7200 * 4, 7200 * 32, by decide, by decide, by decide⟩

/-- The whole composition: whenever the timer handles an event of position `(h, r, st)`, under any
schedule, it arms the configured share of the interval times `2^min(r,5)` (brake: unscaled).
Partial: rounds below `2^32`, no `u64` overflow of interval times ratio, and the node was started
without a WAL record or with one at the propose step; the first two examples below the theorem show
that the claim is false beyond these limits. -/
theorem C26_armed_partial {interval : Nat} {config : Option DurationConfig} {wal : Option SMRBase}
    {s s' : TimerSys} {e : SMREvent} {q : List SMREvent} {h r : Nat} {st : Step}
    (hw : ∀ w, wal = some w → w.step = .propose)
    (hreach : TReach interval config wal s) (hq : s.evtQ = e :: q)
    (hs : s.act .set = some s') (hb : backs e = some (h, r, st)) (hr : r < 2 ^ 32)
    (hc : ConfigOk s'.timer.config) :
    s'.armed = s.armed ++
      [(e, share s'.timer.config st * (if st = .brake then 1 else 2 ^ min r 5))] := by
  have hp := reach_paced (w := wal)
    (by cases wal with
      | none => trivial
      | some w => exact hw w rfl) hreach
  rw [hq] at hp
  obtain ⟨e', q', hq', rfl⟩ := set_act_eq hs
  rw [hq] at hq'
  simp only [List.cons.injEq] at hq'
  obtain ⟨rfl, rfl⟩ := hq'
  simp only at hc ⊢
  rw [C26_duration s.timer e h r st hb hr _ hc]
  · rfl
  · rintro (rfl | rfl) <;> simp only [Paced, hb] at hp <;> exact hp.1.symm

/-- A status with a new interval and new ratios is in force for the very timeout of its new height. -/
theorem C26_new_config (t : Timer) (h r i : Nat) (lr : Option Nat) (lp : Option Hash) (f : FromWhere)
    (d : DurationConfig) :
    let c := (t.setTimer (.newRoundInfo h r lr lp f (some i) (some d))).1.config
    share c .propose = i * d.proposeRatio / 10 ∧ share c .prevote = i * d.prevoteRatio / 10 ∧
    share c .precommit = i * d.precommitRatio / 10 ∧ share c .brake = i * d.brakeRatio / 10 := by
  simp [Timer.setTimer, Timer.onNewRound, TimerConfig.update, TimerConfig.setInterval, share]

/-- A configuration stays until a status brings another one. -/
theorem C26_config_kept (t : Timer) (e : SMREvent)
    (h : ∀ a b c d f i j, e ≠ .newRoundInfo a b c d f (some i) j)
    (h' : ∀ a b c d f i j, e ≠ .newRoundInfo a b c d f i (some j)) :
    (t.setTimer e).1.config = t.config := by
  cases e with
  | newRoundInfo a b c d f i j =>
    cases i with
    | some i => exact absurd rfl (h a b c d f i j)
    | none =>
      cases j with
      | some j => exact absurd rfl (h' a b c d f none j)
      | none => rfl
  | _ => rfl

/-- Schedule used in the examples: height 1 starts, the propose timer of height 1 is set. -/
def C26_demo : List TAct :=
  [.input { triggerType := .newHeight ⟨1, none, none⟩, source := .state, hash := [], lockRound := none,
            round := 0, height := 1, walInfo := none }, .smr]

/-- Run a schedule. -/
def TimerSys.acts (s : TimerSys) : List TAct → Option TimerSys
  | [] => some s
  | a :: l => match s.act a with
    | none => none
    | some s' => s'.acts l

theorem reach_acts {i c w s s'} (l : List TAct) (hr : TReach i c w s) (ho : ∀ a ∈ l, ActOk a)
    (h : s.acts l = some s') : TReach i c w s' := by
  induction l generalizing s with
  | nil => simp [TimerSys.acts] at h; exact h ▸ hr
  | cons a l ih =>
    simp only [TimerSys.acts] at h
    split at h
    · simp at h
    · rename_i s1 h1
      exact ih (.step a hr (ho a (by simp)) h1) (fun b hb => ho b (by simp [hb])) h

theorem C26_demo_ok : ∀ a ∈ C26_demo, ActOk a := by
  intro a ha
  simp [C26_demo] at ha
  rcases ha with rfl | rfl
  · exact ⟨rfl, .inr (.inr (.inr (.inr ⟨_, rfl⟩)))⟩
  · trivial

-- a concrete reachable state that meets the hypotheses of `C26_armed_partial`
example : ∃ s s', TReach 3000 none none s ∧ s.evtQ =
      [.newRoundInfo 1 0 none none (.precommitQC U64MAX) none none] ∧
    s.act .set = some s' ∧ ConfigOk s'.timer.config ∧
    s'.armed = [(.newRoundInfo 1 0 none none (.precommitQC U64MAX) none none, 7200)] := by
  refine ⟨_, _, reach_acts C26_demo .boot C26_demo_ok (s' := _) rfl, rfl, rfl, ?_, ?_⟩
  · unfold ConfigOk; decide
  · decide

-- the limit on rounds is needed: in round 2^32 the factor is 1, not 32 (`round as u32`)
example : (({ Timer.new 3000 none with round := 2 ^ 32 } : Timer).setTimer
      (.prevoteVote 3 (2 ^ 32) [1] none)).2 = some (.prevoteVote 3 (2 ^ 32) [1] none, 3000) ∧
    3000 ≠ share (Timer.new 3000 none).config .prevote * 2 ^ min (2 ^ 32) 5 := by
  constructor <;> decide

/-- The claim C26 is false after a restart: a node that restarts from a WAL record in the prevote step
of round 5 arms the prevote timeout without the factor 32. -/
theorem C26_fails_after_restart : ∃ s s' e,
    TReach 3000 none (some ⟨7, 5, .prevote, none⟩) s ∧ s.evtQ = [e] ∧
    backs e = some (7, 5, .prevote) ∧ s.act .set = some s' ∧ ConfigOk s'.timer.config ∧
    s'.armed = [(e, 3000)] ∧ share s'.timer.config .prevote * 2 ^ min 5 5 = 96000 := by
  refine ⟨_, _, _, .boot, rfl, rfl, rfl, ?_, ?_, ?_⟩
  · unfold ConfigOk; decide
  · decide
  · decide

/-! ## C27 — a live timer always backs the current step -/

/-- Under every schedule of inputs, timer expiries and task switches: a node that is not in the commit
step either has the timeout of exactly its height, round and step in the state machine's channel, or
an event that arms exactly that timeout is queued at the timer, or that timeout is sleeping, or it has
expired and is on its way to the timer. -/
theorem C27_live_timer {interval : Nat} {config : Option DurationConfig} {wal : Option SMRBase}
    {s : TimerSys} (hw : WalOk wal) (hreach : TReach interval config wal s)
    (hst : s.smr.step ≠ .commit) :
    (∃ t ∈ s.trigQ, IsTimeout t s.smr.height s.smr.round s.smr.step) ∨
    (∃ e, backs e = some (s.smr.height, s.smr.round, s.smr.step) ∧ Pending s e) := by
  cases (reach_inv hw hreach).tok hst with
  | trig t ht hi => exact .inl ⟨t, ht, hi⟩
  | evt e l1 l2 hb hq hn => exact .inr ⟨e, hb, .inl (by simp [hq])⟩
  | armed e d hb ha hg => exact .inr ⟨e, hb, .inr (.inl ⟨d, ha⟩)⟩
  | notify e hb ha hg => exact .inr ⟨e, hb, .inr (.inr ha)⟩

/-- That expiry is not filtered out: whatever happened before, once the timer has nothing queued,
sleeping or expired any more, the timeout of exactly the current position is in the state machine's
channel. -/
theorem C27_not_filtered {interval : Nat} {config : Option DurationConfig} {wal : Option SMRBase}
    {s : TimerSys} (hw : WalOk wal) (hreach : TReach interval config wal s)
    (hst : s.smr.step ≠ .commit) (h1 : s.evtQ = []) (h2 : s.armed = []) (h3 : s.notify = []) :
    ∃ t ∈ s.trigQ, IsTimeout t s.smr.height s.smr.round s.smr.step := by
  rcases C27_live_timer hw hreach hst with h | ⟨e, _, h | ⟨d, h⟩ | h⟩
  · exact h
  · simp [h1] at h
  · simp [h2] at h
  · simp [h3] at h

example : ∃ s, TReach 3000 none none s ∧ s.smr.step = .propose ∧ s.evtQ = [] ∧ s.armed = [] ∧
    s.notify = [] := by
  refine ⟨_, reach_acts (C26_demo ++ [.set, .expire 0, .fire 0]) .boot ?_ (s' := _) rfl, rfl, rfl, rfl, rfl⟩
  intro a ha
  rcases List.mem_append.1 ha with ha | ha
  · exact C26_demo_ok a ha
  · simp at ha; rcases ha with rfl | rfl | rfl <;> trivial

/-- The timeout of the current position always makes the machine act, so a node never waits forever:
in every infinite schedule that serves all queues and lets every timeout expire some day, from every
moment at which the node is not in the commit step there is a later moment at which the state machine
handles a trigger that makes it throw an event (vote, new round, choke or commit). -/
theorem C27_never_waits_forever {interval : Nat} {config : Option DurationConfig}
    {wal : Option SMRBase} (hw : WalOk wal) (σ : TRun) (h0 : TReach interval config wal (σ.st 0))
    (hf : Fair σ) (n : Nat) (hst : (σ.st n).smr.step ≠ .commit) :
    ∃ m, n ≤ m ∧ σ.act m = some .smr ∧
      ∃ t q, (σ.st m).trigQ = t :: q ∧ ((σ.st m).smr.onTrigger t).outs ≠ [] :=
  never_stuck σ hf (reach_inv hw h0) n hst

/-- A fair schedule: a node that restarted in the brake step, hears nothing, and chokes again and
again. -/
def C27_demo : TRun where
  st n :=
    let s0 := TimerSys.boot 3000 none (some ⟨7, 5, .brake, none⟩)
    let s1 := { s0 with evtQ := [], armed := [(.brake 7 5 none, 900)] }
    let s2 := { s0 with evtQ := [], notify := [.brake 7 5 none] }
    let s3 := { s0 with evtQ := [], trigQ := [timeoutTrigger .brakeTimeout 7 5] }
    if n % 4 = 0 then s0 else if n % 4 = 1 then s1 else if n % 4 = 2 then s2 else s3
  act n := if n % 4 = 0 then some .set else if n % 4 = 1 then some (.expire 0)
    else if n % 4 = 2 then some (.fire 0) else some .smr
  ok n a h := by
    (repeat' split at h) <;> simp at h <;> subst h <;> trivial
  next n a h := by
    have h4 : n % 4 = 0 ∨ n % 4 = 1 ∨ n % 4 = 2 ∨ n % 4 = 3 := by omega
    rcases h4 with h0 | h0 | h0 | h0
    · have h1 : (n + 1) % 4 = 1 := by omega
      simp only [h0, h1] at h ⊢; simp at h; subst h; decide
    · have h1 : (n + 1) % 4 = 2 := by omega
      simp only [h0, h1] at h ⊢; simp at h; subst h; decide
    · have h1 : (n + 1) % 4 = 3 := by omega
      simp only [h0, h1] at h ⊢; simp at h; subst h; decide
    · have h1 : (n + 1) % 4 = 0 := by omega
      simp only [h0, h1] at h ⊢; simp at h; subst h; decide
  idle n h := by
    (repeat' split at h) <;> simp at h

example : C27_demo.st 0 = TimerSys.boot 3000 none (some ⟨7, 5, .brake, none⟩) := rfl

example : Fair C27_demo := by
  have h4 : ∀ n : Nat, n % 4 = 0 ∨ n % 4 = 1 ∨ n % 4 = 2 ∨ n % 4 = 3 := by omega
  refine ⟨?_, ?_, ?_, ?_⟩
  · intro n _
    have : (n + (3 - n % 4)) % 4 = 3 := by rcases h4 n with h | h | h | h <;> omega
    exact ⟨n + (3 - n % 4), by omega, by simp [C27_demo, this]⟩
  · intro n _
    have : (n + (4 - n % 4)) % 4 = 0 := by rcases h4 n with h | h | h | h <;> omega
    exact ⟨n + (4 - n % 4), by omega, by simp [C27_demo, this]⟩
  · intro n x hx
    rcases h4 n with h | h | h | h <;>
      simp [C27_demo, h, TimerSys.boot, Smr.handleWal, Smr.timerEventAfterWal] at hx
    exact ⟨n, 0, by omega, by simp [C27_demo, h], by simp [C27_demo, h, hx]⟩
  · intro n x hx
    rcases h4 n with h | h | h | h <;>
      simp [C27_demo, h, TimerSys.boot, Smr.handleWal, Smr.timerEventAfterWal] at hx
    exact ⟨n, 0, by omega, by simp [C27_demo, h], by simp [C27_demo, h, hx]⟩

/-! ## C28 — outdated timeouts are dropped -/

/-- A trigger from the timer gets into the state machine's channel only when an expired timeout is
handled; it then names the height, round and step for which that timeout was armed, carries no hash,
no lock and no WAL data, and its height is not below the height the timer has seen; a propose timeout
is moreover not below the round the timer has seen. -/
theorem C28_timeouts_faithful {interval : Nat} {config : Option DurationConfig} {wal : Option SMRBase}
    {s s' : TimerSys} {a : TAct} (_hreach : TReach interval config wal s) (ha : ActOk a)
    (hs : s.act a = some s') (t : SMRTrigger) (ht : t ∈ s'.trigQ) (hsrc : t.source = .timer)
    (hnew : t ∉ s.trigQ) :
    ∃ e ∈ s.notify, ∃ st, backs e = some (t.height, t.round, st) ∧
      IsTimeout t t.height t.round st ∧ s.timer.height ≤ t.height ∧
      (st = .propose → s.timer.round ≤ t.round) := by
  cases a with
  | input x =>
    simp only [TimerSys.act, Option.some.injEq] at hs
    subst hs
    simp [hnew] at ht
    subst ht
    have := ha.1
    rw [hsrc] at this
    simp at this
  | smr =>
    obtain ⟨x, q, hq, rfl⟩ := smr_act_eq hs
    exact absurd (by rw [hq]; exact List.mem_cons_of_mem _ ht) hnew
  | set =>
    obtain ⟨e, q, hq, rfl⟩ := set_act_eq hs
    exact absurd ht hnew
  | expire i =>
    obtain ⟨x, _, rfl⟩ := expire_act_eq hs
    exact absurd ht hnew
  | fire i =>
    obtain ⟨e, he, rfl⟩ := fire_act_eq hs
    simp [hnew] at ht
    refine ⟨e, List.mem_of_getElem? he, ?_⟩
    cases e <;> simp [Timer.trigger] at ht <;> obtain ⟨h1, rfl⟩ := ht
    · exact ⟨.propose, by simp [backs, IsTimeout, timeoutTrigger, timeoutKind]; omega⟩
    · exact ⟨.prevote, by simp [backs, IsTimeout, timeoutTrigger, timeoutKind]; omega⟩
    · exact ⟨.precommit, by simp [backs, IsTimeout, timeoutTrigger, timeoutKind]; omega⟩
    · exact ⟨.brake, by simp [backs, IsTimeout, timeoutTrigger, timeoutKind]; omega⟩

/-- Once the timer has seen height `h` it has seen it for good … -/
theorem C28_seen_height_grows (s s' : TimerSys) (a : TAct) (hs : s.act a = some s') :
    s.timer.height ≤ s'.timer.height := by
  cases a with
  | input t =>
    simp only [TimerSys.act, Option.some.injEq] at hs
    subst hs; exact Nat.le_refl _
  | smr => obtain ⟨x, q, hq, rfl⟩ := smr_act_eq hs; exact Nat.le_refl _
  | set =>
    obtain ⟨e, q, hq, rfl⟩ := set_act_eq hs
    by_cases hn : IsNRI e
    · obtain ⟨h, r, a, b, c, d, f, rfl⟩ := (isNRI_iff e).1 hn
      simp only [setTimer_nri, onNewRound_height]
      omega
    · simp only [setTimer_other _ _ hn]; exact Nat.le_refl _
  | expire i => obtain ⟨x, _, rfl⟩ := expire_act_eq hs; exact Nat.le_refl _
  | fire i => obtain ⟨x, _, rfl⟩ := fire_act_eq hs; exact Nat.le_refl _

/-- … namely as soon as it handles the `NewRoundInfo` event of that height … -/
theorem C28_height_seen (t : Timer) (h r lr lp f i c) :
    h ≤ (t.setTimer (.newRoundInfo h r lr lp f i c)).1.height := by
  rw [setTimer_nri, onNewRound_height]; omega

/-- … and from then on an expired timeout of a lower height reaches the machine in no state. -/
theorem C28_outdated_dropped (s s' : TimerSys) (i : Nat) (e : SMREvent) (h r : Nat) (st : Step)
    (hi : s.notify[i]? = some e) (hb : backs e = some (h, r, st)) (hlow : h < s.timer.height)
    (hs : s.act (.fire i) = some s') : s'.trigQ = s.trigQ ∧ s'.smr = s.smr := by
  obtain ⟨x, hx, rfl⟩ := fire_act_eq hs
  rw [hi] at hx
  simp only [Option.some.injEq] at hx
  subst hx
  cases e <;> simp [backs] at hb <;> simp [Timer.trigger] <;> omega

/-- Height 1 times out in the timer while height 2 has begun. -/
def C28_demo : List TAct :=
  C26_demo ++ [.set, .expire 0,
    .input { triggerType := .newHeight ⟨2, none, none⟩, source := .state, hash := [],
             lockRound := none, round := 0, height := 2, walInfo := none }, .smr, .set]

example : ∃ s s' e, TReach 3000 none none s ∧ s.notify[0]? = some e ∧
    backs e = some (1, 0, .propose) ∧ 1 < s.timer.height ∧ s.act (.fire 0) = some s' := by
  refine ⟨_, _, _, reach_acts C28_demo .boot ?_ (s' := _) rfl, rfl, rfl, by decide, rfl⟩
  intro a ha
  rcases List.mem_append.1 ha with ha | ha
  · exact C26_demo_ok a ha
  · simp at ha
    rcases ha with rfl | rfl | rfl | rfl | rfl <;> try trivial
    exact ⟨rfl, .inr (.inr (.inr (.inr ⟨_, rfl⟩)))⟩

end Overlord
