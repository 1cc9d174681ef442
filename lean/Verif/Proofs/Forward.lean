import Verif.Proofs.Single
import Verif.Proofs.NodeTimer
import Verif.Spec.Forward

/-! The records a node saves in its whole life go forward (used for C74). -/

set_option linter.unusedSimpArgs false
set_option linter.unusedVariables false
set_option linter.unusedSectionVars false
set_option linter.unnecessarySeqFocus false

namespace Overlord
open M Spec

variable {T : Type} [ContentCodec T] [DecidableEq T]

namespace Fwd

open Single (mem_saved savedOf_append)

theorem placesOf_append (l l' : List (Effect T)) : placesOf (l ++ l') = placesOf l ++ placesOf l' := by
  simp [placesOf, savedOf_append]

/-- Whether the record of an observation is saved. -/
def place : Obs T → Option Pos
  | .save w => some (recPos w)
  | _ => none

theorem placesOf_obs (l : List (Effect T)) : placesOf l = (obs l).filterMap place := by
  unfold placesOf
  rw [savedOf_obs]
  unfold obsSaves
  rw [List.map_filterMap]
  congr 1
  funext x
  cases x <;> rfl

theorem onw_refl (a : Pos) : Onward a a := by unfold Onward; omega
theorem onw_trans {a b c : Pos} (h : Onward a b) (h' : Onward b c) : Onward a c := by unfold Onward at *; omega
theorem onw_le {a b c : Pos} (h : Onward a b) (hs : b.step ≤ 3) (h' : Pos.le b c) : Onward a c := by
  unfold Onward Pos.le at *; omega
theorem onw_low {a b : Pos} (h : a.height < b.height) : Onward a b := .inl h

def Sorted (l : List Pos) : Prop := l.Pairwise Onward

theorem sorted_add {P Q : List Pos} (h : Sorted P) (hq : Sorted Q) (hle : ∀ p ∈ P, ∀ q ∈ Q, Onward p q) : Sorted (P ++ Q) :=
  List.pairwise_append.2 ⟨h, hq, hle⟩

/-- What takes place of a list of effects is a part of it. -/
theorem cut_sublist (c : Option Nat) (l : List (Effect T)) : (placesOf (cutTo c l)).Sublist (placesOf l) := by
  unfold placesOf savedOf
  cases c with
  | none => exact List.Sublist.refl _
  | some k => exact ((List.take_sublist k l).filterMap _).map _

theorem sorted_cut {L l : List (Effect T)} (h : Sorted (placesOf L ++ placesOf l)) (c : Option Nat) :
    Sorted (placesOf (L ++ cutTo c l)) := by
  rw [placesOf_append]
  exact h.sublist ((List.Sublist.refl _).append (cut_sublist c l))

/-! ## Pending orders -/

/-- The place of the machine, without the commit step. -/
def pos3 (m : Smr) : Pos := ⟨m.height, m.round, min m.step.toNat 3⟩

/-- The pending events `evs` of height `H`, to be handled by a State whose round is `r` and whose records of this height are
at most at `p`, lead it forward, up to the place of `m`. -/
def WChain (H : Nat) : Pos → Nat → List SMREvent → Smr → Prop
  | p, r, [], m => Pos.le p (pos3 m) ∧ r = m.round
  | p, r, .newRoundInfo h r' _ _ _ _ _ :: evs, m =>
    if h = H then Pos.le p ⟨H, r', 0⟩ ∧ WChain H ⟨H, r', 0⟩ r' evs m else WChain H p r evs m
  | p, r, .prevoteVote h _ _ _ :: evs, m =>
    if h = H then Pos.le p ⟨H, r, 1⟩ ∧ WChain H ⟨H, r, 1⟩ r evs m else WChain H p r evs m
  | p, r, .precommitVote h _ _ _ :: evs, m =>
    if h = H then Pos.le p ⟨H, r, 2⟩ ∧ WChain H ⟨H, r, 2⟩ r evs m else WChain H p r evs m
  | p, r, .brake h _ _ :: evs, m =>
    if h = H then Pos.le p ⟨H, r, 3⟩ ∧ WChain H ⟨H, r, 3⟩ r evs m else WChain H p r evs m
  | p, r, .commit _ :: evs, m => WChain H p r evs m
  | p, r, .stop :: evs, m => WChain H p r evs m

/-- The height of an event that orders the State to save. -/
def orderHeightB : SMREvent → Option Nat
  | .newRoundInfo h .. => some h
  | .prevoteVote h .. => some h
  | .precommitVote h .. => some h
  | .brake h .. => some h
  | _ => none

theorem wchain_append {H : Nat} {evs' : List SMREvent} {m m' : Smr} :
    ∀ (evs : List SMREvent) (p : Pos) (r : Nat), WChain H p r evs m →
      (∀ p, Pos.le p (pos3 m) → WChain H p m.round evs' m') → WChain H p r (evs ++ evs') m' := by
  intro evs
  induction evs with
  | nil => intro p r h hk; obtain ⟨h1, h2⟩ := h; subst h2; exact hk p h1
  | cons ev evs ih =>
    intro p r h hk
    cases ev <;> simp only [WChain, List.cons_append] at h ⊢
    all_goals first
      | (split at h
         · rename_i hh; rw [if_pos hh]; exact ⟨h.1, ih _ _ h.2 hk⟩
         · rename_i hh; rw [if_neg hh]; exact ih _ _ h hk)
      | exact ih _ _ h hk

/-- Pending events of other heights do not count. -/
theorem wchain_other {H : Nat} {tail : List SMREvent} {m : Smr} :
    ∀ (evs : List SMREvent) (p : Pos) (r : Nat), (∀ ev ∈ evs, ∀ h, orderHeightB ev = some h → h < H) →
      WChain H p r tail m → WChain H p r (evs ++ tail) m := by
  intro evs
  induction evs with
  | nil => intro p r _ h; exact h
  | cons ev evs ih =>
    intro p r hev h
    have ih' := ih p r (fun ev' he' => hev ev' (List.mem_cons_of_mem _ he')) h
    have h0 := hev ev (by simp)
    cases ev <;> simp only [WChain, List.cons_append, orderHeightB, Option.some.injEq] at h0 ⊢
    all_goals first
      | (rw [if_neg (by have := h0 _ rfl; omega)]; exact ih')
      | exact ih'

/-- Brake timeouts come after the machine has been at the brake step. -/
def Slow (t : SMRTrigger) (m : Smr) : Prop :=
  t.triggerType = .brakeTimeout → t.source = .timer → Pos.le ⟨t.height, t.round, 3⟩ (pos m)

/-- One iteration of the voting state machine at the same height. -/
theorem wchain_smr {m : Smr} {t : SMRTrigger} (hw : NotWal t) (hsl : Slow t m) (hr : t.round < 2 ^ 64 - 1)
    (hh : (m.onTrigger t).next.height = m.height) {p : Pos} (hp : Pos.le p (pos3 m)) :
    WChain m.height p m.round ((m.onTrigger t).outs.filterMap Out.toState) (m.onTrigger t).next := by
  have hc := smr_case m t
  generalize m.onTrigger t = o at *
  cases hc with
  | quiet res => exact ⟨hp, rfl⟩
  | newHeight st ht hs hlt => simp only at hh; omega
  | propTimer ht hs h1 h2 hstp =>
    simp only [pos3, Pos.le, hstp] at hp
    simp [WChain, Out.toState, pos3, Pos.le] at hp ⊢
    omega
  | propState s1 ht hs h1 h2 hstp hne hacc =>
    obtain ⟨a1, a2, a3, _⟩ := accept_spec hacc
    simp only [pos3, Pos.le, hstp] at hp
    simp [WChain, Out.toState, pos3, Pos.le, a1, a2] at hp ⊢
    omega
  | prevoteTimer b ht hs h1 h2 hstp hb =>
    simp only [pos3, Pos.le] at hp
    simp [WChain, Out.toState, pos3, Pos.le] at hp ⊢
    omega
  | prevoteSame ht hs h1 h2 hstp =>
    simp only [pos3, Pos.le] at hp
    simp [WChain, Out.toState, pos3, Pos.le, updatePolc_height, updatePolc_round] at hp ⊢
    omega
  | prevoteSkip ht hs h1 h2 =>
    have := inc64_of_lt hr
    simp only [pos3, Pos.le] at hp
    simp [WChain, Out.toState, pos3, Pos.le, updatePolc_height, updatePolc_round, this] at hp ⊢
    omega
  | precommitTimer ht hs h1 h2 hstp =>
    simp only [pos3, Pos.le] at hp
    simp [WChain, Out.toState, pos3, Pos.le] at hp ⊢
    omega
  | precommitNil ht hs h1 h2 hstp hn =>
    have := inc64_of_lt hr
    simp only [pos3, Pos.le] at hp
    simp [WChain, Out.toState, pos3, Pos.le, this] at hp ⊢
    omega
  | commit ht hs h1 hstp hn =>
    simp only [pos3, Pos.le] at hp
    simp [WChain, Out.toState, pos3, Pos.le] at hp ⊢
    omega
  | brake ht hs h1 h2 =>
    have := hsl ht hs
    rw [h1, h2] at this
    simp only [pos, Pos.le] at this
    simp only [pos3, Pos.le] at hp
    simp [WChain, Out.toState, pos3, Pos.le] at hp ⊢
    omega
  | cont ht hs h1 h2 =>
    have := inc64_of_lt (n := t.round - 1) (by omega)
    simp only [pos3, Pos.le] at hp
    simp [WChain, Out.toState, pos3, Pos.le, this] at hp ⊢
    omega
  | wal w ht => exact absurd ht hw
  | stop ht => exact ⟨hp, rfl⟩

/-- The brake orders of one iteration. -/
theorem brake_out {m : Smr} {t : SMRTrigger} (hw : NotWal t) (hsl : Slow t m) {h r : Nat} {lr : Option Nat}
    (ho : .brake h r lr ∈ (m.onTrigger t).outs.map Out.event) : Pos.le ⟨h, r, 3⟩ (pos (m.onTrigger t).next) := by
  have hc := smr_case m t
  generalize m.onTrigger t = o at *
  cases hc with
  | precommitTimer ht hs h1 h2 hstp =>
    simp [Out.event] at ho
    obtain ⟨rfl, rfl, rfl⟩ := ho
    simp [pos, Pos.le]
  | brake ht hs h1 h2 =>
    have := hsl ht hs
    simp [Out.event] at ho
    obtain ⟨rfl, rfl, rfl⟩ := ho
    rw [h1, h2] at this
    exact this
  | wal w ht => exact absurd ht hw
  | _ => simp [Out.event] at ho

theorem toState_event {l : List Out} {ev : SMREvent} (h : ev ∈ l.filterMap Out.toState) : ev ∈ l.map Out.event := by
  obtain ⟨o, ho, h⟩ := List.mem_filterMap.1 h
  refine List.mem_map.2 ⟨o, ho, ?_⟩
  cases o with
  | both e => simpa [Out.toState, Out.event] using h
  | timerOnly e => simp [Out.toState] at h

/-! ## The invariant of a running node -/

/-- The brake orders and timeouts on their way. -/
structure Brk (s : TimerSys) (q : List SMREvent) : Prop where
  evt : ∀ h r lr, .brake h r lr ∈ s.evtQ → Pos.le ⟨h, r, 3⟩ (pos s.smr)
  arm : ∀ x ∈ s.armed, ∀ h r lr, x.1 = .brake h r lr → Pos.le ⟨h, r, 3⟩ (pos s.smr)
  ntf : ∀ h r lr, .brake h r lr ∈ s.notify → Pos.le ⟨h, r, 3⟩ (pos s.smr)
  trg : ∀ t ∈ s.trigQ, Slow t s.smr
  stq : ∀ h r lr, .brake h r lr ∈ q → h ≤ s.smr.height

/-- A running node that has saved records for the places `P`. -/
structure Led (P : List Pos) (n : NodeSys T) : Prop where
  hP : ∀ p ∈ P, p.height ≤ n.st.height
  gP : n.st.consensusPower = true → ∀ p ∈ P, Onward p ⟨n.st.height, n.st.round, 4⟩
  trig : ∀ t ∈ n.sys.trigQ, ∀ st, t.triggerType = .newHeight st → n.sys.smr.height < st.height → st.height = n.st.height →
    ∀ p ∈ P, Onward p ⟨st.height, 0, 0⟩
  chain : n.st.consensusPower = true → n.sys.smr.height = n.st.height →
    ∃ p, p.step ≤ 3 ∧ (∀ x ∈ P, Onward x p) ∧ WChain n.st.height p n.st.round n.stQ n.sys.smr
  brk : Brk n.sys n.stQ

theorem led_frame {P : List Pos} {n n' : NodeSys T} (h : Led P n) (h2 : n'.st = n.st)
    (h3 : n'.sys.smr = n.sys.smr) (h4 : n'.stQ = n.stQ)
    (h5 : ∀ t ∈ n'.sys.trigQ, t ∈ n.sys.trigQ ∨ ∀ st, t.triggerType ≠ .newHeight st) (h6 : Brk n'.sys n'.stQ) : Led P n' := by
  refine ⟨by rw [h2]; exact h.hP, by rw [h2]; exact h.gP, ?_, by rw [h2, h3, h4]; exact h.chain, h6⟩
  intro t ht st hst
  rw [h3, h2]
  rcases h5 t ht with h6 | h6
  · exact h.trig t h6 st hst
  · exact absurd hst (h6 st)

theorem pos_step {m : Smr} {t : SMRTrigger} (hw : NotWal t) (hr : t.round < 2 ^ 64 - 1) :
    Pos.le (pos m) (pos (m.onTrigger t).next) :=
  step_pos m t hw (by simp only [InRange]; omega) (by simp only [LastRoundQC]; omega)

theorem brk_smr {s : TimerSys} {sq : List SMREvent} {t : SMRTrigger} {q : List SMRTrigger} (h : Brk s sq)
    (hw : NotWal t) (hr : t.round < 2 ^ 64 - 1) (hq : s.trigQ = t :: q) :
    Brk { s with smr := (s.smr.onTrigger t).next, trigQ := q, evtQ := s.evtQ ++ (s.smr.onTrigger t).outs.map Out.event }
      (sq ++ (s.smr.onTrigger t).outs.filterMap Out.toState) := by
  have hm := pos_step (m := s.smr) hw hr
  have hsl := h.trg t (by rw [hq]; simp)
  have bo := fun h r lr => brake_out (m := s.smr) (h := h) (r := r) (lr := lr) hw hsl
  refine ⟨?_, ?_, ?_, ?_, ?_⟩
  · intro k r lr hk
    rcases List.mem_append.1 hk with hk | hk
    · exact Pos.le_trans (h.evt k r lr hk) hm
    · exact bo _ _ _ hk
  · intro x hx k r lr hk; exact Pos.le_trans (h.arm x hx k r lr hk) hm
  · intro k r lr hk; exact Pos.le_trans (h.ntf k r lr hk) hm
  · intro t' ht' h1 h2
    exact Pos.le_trans (h.trg t' (by rw [hq]; exact List.mem_cons_of_mem _ ht') h1 h2) hm
  · intro k r lr hk
    dsimp only
    rcases List.mem_append.1 hk with hk | hk
    · have := h.stq k r lr hk
      simp only [pos, Pos.le] at hm; omega
    · have := bo _ _ _ (toState_event hk)
      simp only [pos, Pos.le] at this; omega

/-- The voting state machine handles a trigger. -/
theorem led_smr {P : List Pos} {n n' : NodeSys T} {t : SMRTrigger} {q : List SMRTrigger} (h : Led P n)
    (hw : NotWal t) (hev : ∀ ev ∈ n.stQ, ∀ h, orderHeight ev = some h → h ≤ n.sys.smr.height)
    (hq : n.sys.trigQ = t :: q) (hr : t.round < 2 ^ 64 - 1) (h2 : n'.st = n.st)
    (h3 : n'.sys = { n.sys with smr := (n.sys.smr.onTrigger t).next, trigQ := q,
                                evtQ := n.sys.evtQ ++ (n.sys.smr.onTrigger t).outs.map Out.event })
    (h4 : n'.stQ = n.stQ ++ (n.sys.smr.onTrigger t).outs.filterMap Out.toState) : Led P n' := by
  have htr := h.trig t (by rw [hq]; simp)
  have hsl := h.brk.trg t (by rw [hq]; simp)
  obtain ⟨g1, g2, g3⟩ := smr_heights (m := n.sys.smr) hw
  refine ⟨by rw [h2]; exact h.hP, by rw [h2]; exact h.gP, ?_, ?_, by rw [h3, h4]; exact brk_smr h.brk hw hr hq⟩
  · intro t' ht' st hst hlt
    rw [h3] at ht' hlt
    rw [h2]
    exact h.trig t' (by rw [hq]; exact List.mem_cons_of_mem _ ht') st hst (by dsimp only at hlt; omega)
  · rw [h2, h3, h4]
    dsimp only
    intro hp heq
    rcases g3 with g3 | ⟨st, g3, g4, g5, f, ni, nc, g6⟩
    · rw [g3] at heq
      obtain ⟨p, c0, c1, c2⟩ := h.chain hp heq
      refine ⟨p, c0, c1, wchain_append _ _ _ c2 fun p' hp' => ?_⟩
      rw [← heq]
      exact wchain_smr hw hsl hr g3 hp'
    · -- a new height
      rw [g5] at heq
      simp only at heq
      have hlow := htr st g3 g4 heq
      refine ⟨⟨st.height, 0, 0⟩, by dsimp only; omega, hlow, ?_⟩
      refine wchain_other _ _ _ (fun ev hev' hh ho => ?_) ?_
      · cases ev <;> simp only [orderHeightB, Option.some.injEq, reduceCtorEq] at ho
        case brake => have := h.brk.stq _ _ _ hev'; omega
        all_goals (have := hev _ hev' hh (by simpa [orderHeight] using ho); omega)
      · rw [g6, g5]
        simp [Out.toState, WChain, heq, pos3, Pos.le]

/-- The triggers of the State are marked as its own. -/
theorem arm_source {e : Env T} {s : State T} {i : Input T} {t : SMRTrigger}
    (ht : .trigger t ∈ (runArm i e ⟨s, []⟩).2.log) : t.source = .state := by
  obtain ⟨s1, eff, s2, -, hm, hx⟩ := arm_effect (P := fun _ => True) trivial (fun _ _ _ _ _ => trivial) ht
  cases hm with
  | castVote => simp at hx; split at hx <;> simp at hx
  | enterRound => split at hx <;> simp at hx
  | _ => simp at hx <;> (try (subst hx; simp [stTrigger, walTrig]))

theorem brk_more {s s' : TimerSys} {q q' : List SMREvent} {l : List SMRTrigger} (h : Brk s q) (hs : s' = { s with trigQ := s.trigQ ++ l })
    (hl : ∀ t ∈ l, t.source = .state) (hq : ∀ ev ∈ q', ev ∈ q) : Brk s' q' := by
  subst hs
  refine ⟨h.evt, h.arm, h.ntf, ?_, fun k r lr hk => h.stq k r lr (hq _ hk)⟩
  intro t ht
  rcases List.mem_append.1 ht with ht | ht
  · exact h.trg t ht
  · intro _ h2; rw [hl t ht] at h2; cases h2

/-! ## One step of the State's loop -/

/-- What a move saves and tells, and where it ends. -/
theorem moves_places {e : Env T} {s : State T} {status : Status} {w : World T} (m : Moves e s status w) :
    (w.st = s ∧ obs w.log = [] ∧ status.height ≤ s.height) ∨
    (s.height < w.st.height ∧ (∀ st, .high st ∈ obs w.log → st.height = w.st.height) ∧
      (placesOf w.log = [] ∨ placesOf w.log = [⟨w.st.height, 0, 0⟩])) := by
  cases m with
  | stay hh => exact .inl ⟨rfl, rfl, hh⟩
  | away hh hp => exact .inr ⟨hh, by simp, .inl rfl⟩
  | lost hh hp hs => exact .inr ⟨hh, by simp [obs, obsOf, releasedVote], .inl rfl⟩
  | adopt hh hp hs =>
    refine .inr ⟨hh, ?_, .inr ?_⟩
    · dsimp only; rw [obs_adopt _ _ _ _ status.toSMR rfl]
      intro st hst
      simp only [List.mem_cons, reduceCtorEq, List.not_mem_nil, or_false, false_or, Obs.high.injEq] at hst
      subst hst; rfl
    · rw [placesOf_obs]; dsimp only; rw [obs_adopt _ _ _ _ status.toSMR rfl]
      rfl

/-- What a commit saves and tells, and where it ends. -/
theorem commit_places {e : Env T} {s : State T} {hash : Hash} {w : World T} (c : CommitOut e s hash w) (ok : CommitsSucceed e) :
    (w.st = s ∧ obs w.log = []) ∨
    (s.height < w.st.height ∧ (∀ st, .high st ∈ obs w.log → st.height = w.st.height) ∧
      (placesOf w.log = [⟨s.height, s.round, 4⟩] ∨ placesOf w.log = [⟨s.height, s.round, 4⟩, ⟨w.st.height, 0, 0⟩])) := by
  cases c with
  | none => exact .inl ⟨rfl, rfl⟩
  | lost => exact .inl ⟨rfl, by simp [obs, obsOf, releasedVote]⟩
  | failed content qc hb hq hs hc =>
    obtain ⟨st, h1, _⟩ := ok s.height (mkCommit s hash content qc)
    rw [hc] at h1; cases h1
  | stuck content qc status x hb hq hs hc hx =>
    obtain ⟨st, h1, _, l, h2⟩ := ok s.height (mkCommit s hash content qc)
    rw [hc] at h1; cases h1
    rw [hx] at h2; cases h2
  | done content qc status w2 hb hq hs hc hm =>
    obtain ⟨st, h1, h2, _⟩ := ok s.height (mkCommit s hash content qc)
    rw [hc] at h1; cases h1
    have ho : obs ([Effect.saveWal (commitRec s qc content) true, .commitCall s.height (mkCommit s hash content qc) (some status)] ++ w2.log) =
        [.save (commitRec s qc content), .call s.height (mkCommit s hash content qc) (some status)] ++ obs w2.log := by
      rw [obs_append]; rfl
    have hpl : placesOf ([Effect.saveWal (commitRec s qc content) true, .commitCall s.height (mkCommit s hash content qc) (some status)] ++ w2.log) =
        ⟨s.height, s.round, 4⟩ :: placesOf w2.log := by
      rw [placesOf_append]; rfl
    rcases moves_places hm with ⟨_, _, m3⟩ | ⟨m1, m2, m3⟩
    · exact absurd h2 (by have : status.height ≤ s.height := m3; omega)
    · right
      dsimp only
      refine ⟨m1, ?_, ?_⟩
      · rw [ho]
        intro st hst
        simp only [List.cons_append, List.nil_append, List.mem_cons, reduceCtorEq, false_or] at hst
        exact m2 st hst
      · rw [hpl]
        rcases m3 with m3 | m3 <;> rw [m3]
        · exact .inl rfl
        · exact .inr rfl

theorem le_low {x : Pos} {H : Nat} (h : x.height < H) (q : Pos) (hq : q.height = H) : Onward x q := by
  left; omega

theorem led_arm {k0 : Nat} {p0 : Pos} {n n1 : NodeSys T} {a : Arm T} {e : Env T} {i : Input T} {cut : Option Nat}
    (h : Led (placesOf n.log) n) (hl : Live k0 p0 n) (ok : InSync n (.arm a e cut)) (ok2 : CommitsSucceed e)
    (ht : n.take a = some (i, n1)) (hg : Sorted (placesOf n.log)) :
    ((n1.took cut (runArm i e ⟨n.st, []⟩)).down = false →
      Led (placesOf (n1.took cut (runArm i e ⟨n.st, []⟩)).log) (n1.took cut (runArm i e ⟨n.st, []⟩))) ∧
    Sorted (placesOf n.log ++ placesOf (runArm i e ⟨n.st, []⟩).2.log) := by
  obtain ⟨hi, e1, e2, e3, e4⟩ := take_spec ht
  have hsrc : ∀ t ∈ trigsOf (runArm i e ⟨n.st, []⟩).2.log, t.source = .state := fun t h => arm_source (mem_trigsOf.1 h)
  have hsub : ∀ ev ∈ n1.stQ, ev ∈ n.stQ := by
    rcases e4 with ⟨e4, _⟩ | ⟨_, ev, _, e4⟩
    · rw [e4]; exact fun _ h => h
    · rw [e4]; exact fun _ h => List.mem_cons_of_mem _ h
  -- the node after the whole input
  have key : (runArm i e ⟨n.st, []⟩).1 = .ok true → cut = none →
      ∀ n', n' = n1.took cut (runArm i e ⟨n.st, []⟩) →
      n'.log = n.log ++ (runArm i e ⟨n.st, []⟩).2.log ∧ n'.st = (runArm i e ⟨n.st, []⟩).2.st ∧
      n'.sys = { n.sys with trigQ := n.sys.trigQ ++ trigsOf (runArm i e ⟨n.st, []⟩).2.log } ∧
      n'.stQ = n1.stQ := by
    rintro _ rfl n' rfl
    simp [NodeSys.took, NodeSys.absorb, cutTo, e1, e2, e3]
  generalize hW : (runArm i e ⟨n.st, []⟩).2 = W at *
  -- outcomes in the same place
  have same : SamePos n.st W.st → (∀ st, .high st ∉ obs W.log) →
      (placesOf W.log = [] ∨ ∃ s, placesOf W.log = [⟨n.st.height, W.st.round, s⟩] ∧ s ≤ 4 ∧ n.sys.smr.height = n.st.height) →
      (∀ p ∈ placesOf n.log, ∀ q ∈ placesOf W.log, Onward p q) →
      (n.st.consensusPower = true → ∀ p ∈ placesOf n.log, Onward p ⟨n.st.height, W.st.round, 4⟩) →
      ((n1.took cut (runArm i e ⟨n.st, []⟩)).down = false → n.st.consensusPower = true → n.sys.smr.height = n.st.height →
        ∃ p, p.step ≤ 3 ∧ (∀ x ∈ placesOf n.log ++ placesOf W.log, Onward x p) ∧ WChain n.st.height p W.st.round n1.stQ n.sys.smr) →
      ((n1.took cut (runArm i e ⟨n.st, []⟩)).down = false →
        Led (placesOf (n1.took cut (runArm i e ⟨n.st, []⟩)).log) (n1.took cut (runArm i e ⟨n.st, []⟩))) ∧
      Sorted (placesOf n.log ++ placesOf W.log) := by
    intro q1 q2 q3 q4 q5 q6
    have hsq : Sorted (placesOf W.log) := by
      rcases q3 with q3 | ⟨s, q3, _⟩ <;> rw [q3]
      · exact .nil
      · exact List.pairwise_singleton _ _
    refine ⟨fun hup => ?_, sorted_add hg hsq q4⟩
    obtain ⟨hc, hr⟩ := took_up hup
    obtain ⟨k1, k2, k3, k4⟩ := key hr hc _ rfl
    generalize n1.took cut (runArm i e ⟨n.st, []⟩) = n' at *
    have hPQ : ∀ {B : Pos → Prop}, (∀ p ∈ placesOf n.log, B p) → (∀ s, s ≤ 4 → B ⟨n.st.height, W.st.round, s⟩) →
        ∀ p ∈ placesOf n'.log, B p := by
      intro B b1 b2 p hp
      rw [k1, placesOf_append] at hp
      rcases List.mem_append.1 hp with hp | hp
      · exact b1 p hp
      · rcases q3 with q3 | ⟨s, q3, q3', _⟩ <;> rw [q3] at hp
        · cases hp
        · rw [List.mem_singleton.1 hp]; exact b2 s q3'
    refine ⟨?_, ?_, ?_, ?_, brk_more h.brk k3 hsrc (by rw [k4]; exact hsub)⟩
    · rw [k2, q1.height]; exact hPQ h.hP (fun _ _ => Nat.le_refl _)
    · rw [k2, q1.height, q1.power]
      intro hp
      exact hPQ (q5 hp) (fun s hs => by show Onward _ _; unfold Onward; dsimp only; omega)
    · rw [k3, k2, q1.height]
      intro t ht st hst hlt heq
      dsimp only at ht hlt
      rcases List.mem_append.1 ht with ht | ht
      · rcases q3 with q3 | ⟨s, q3, q3', q3''⟩
        · rw [k1, placesOf_append, q3, List.append_nil]; exact h.trig t ht st hst hlt heq
        · omega
      · exact absurd (high_of_trigger (mem_trigsOf.1 ht) hst) (q2 st)
    · rw [k3, k2, q1.height, q1.power, k4, k1, placesOf_append]
      exact q6 hup
  -- outcomes at another height
  have away : n.st.height < W.st.height → (∀ st, .high st ∈ obs W.log → st.height = W.st.height) →
      Sorted (placesOf W.log) → (∀ q ∈ placesOf W.log, Onward q ⟨W.st.height, 0, 0⟩) →
      (∀ p ∈ placesOf n.log, ∀ q ∈ placesOf W.log, Onward p q) →
      ((n1.took cut (runArm i e ⟨n.st, []⟩)).down = false →
        Led (placesOf (n1.took cut (runArm i e ⟨n.st, []⟩)).log) (n1.took cut (runArm i e ⟨n.st, []⟩))) ∧
      Sorted (placesOf n.log ++ placesOf W.log) := by
    intro q1 q2 q3 q4 q5
    refine ⟨fun hup => ?_, sorted_add hg q3 q5⟩
    obtain ⟨hc, hr⟩ := took_up hup
    obtain ⟨k1, k2, k3, k4⟩ := key hr hc _ rfl
    generalize n1.took cut (runArm i e ⟨n.st, []⟩) = n' at *
    have hall : ∀ p ∈ placesOf n'.log, Onward p ⟨W.st.height, 0, 0⟩ := by
      intro p hp
      rw [k1, placesOf_append] at hp
      rcases List.mem_append.1 hp with hp | hp
      · have := h.hP p hp; left; dsimp only; omega
      · exact q4 p hp
    have hsm := hl.smrLe
    refine ⟨?_, ?_, ?_, ?_, brk_more h.brk k3 hsrc (by rw [k4]; exact hsub)⟩
    · rw [k2]; intro p hp; have := hall p hp; simp only [Onward] at this; omega
    · rw [k2]; intro _ p hp; have := hall p hp; simp only [Onward] at this ⊢; omega
    · rw [k3, k2]
      intro t ht st hst hlt heq p hp
      have := hall p hp
      rw [heq]; exact this
    · rw [k3, k2]; intro _ heq; dsimp only at heq; omega
  have chainAt : n.st.consensusPower = true → n.sys.smr.height = n.st.height →
      ∃ p, p.step ≤ 3 ∧ (∀ x ∈ placesOf n.log, Onward x p) ∧ WChain n.st.height p n.st.round n.stQ n.sys.smr := h.chain
  -- nothing saved, no order taken up
  have still : SamePos n.st W.st → W.st.round = n.st.round → obs W.log = [] →
      ((n1.took cut (runArm i e ⟨n.st, []⟩)).down = false → n.st.consensusPower = true → n.sys.smr.height = n.st.height →
        ∀ p, p.step ≤ 3 → WChain n.st.height p n.st.round n.stQ n.sys.smr → ∃ p', p'.step ≤ 3 ∧ Pos.le p p' ∧ WChain n.st.height p' n.st.round n1.stQ n.sys.smr) →
      ((n1.took cut (runArm i e ⟨n.st, []⟩)).down = false →
        Led (placesOf (n1.took cut (runArm i e ⟨n.st, []⟩)).log) (n1.took cut (runArm i e ⟨n.st, []⟩))) ∧
      Sorted (placesOf n.log ++ placesOf W.log) := by
    intro q1 q2 q3 q4
    have hpl : placesOf W.log = [] := by rw [placesOf_obs, q3]; rfl
    refine same q1 (by rw [q3]; simp) (.inl hpl) (by rw [hpl]; simp) (by rw [q2]; exact h.gP) ?_
    intro hup hp hm
    obtain ⟨p, c0, c1, c2⟩ := chainAt hp hm
    obtain ⟨p', c5, c3, c4⟩ := q4 hup hp hm p c0 c2
    rw [hpl, List.append_nil, q2]
    exact ⟨p', c5, fun x hx => onw_le (c1 x hx) c0 c3, c4⟩
  -- an order of the machine: at most one record
  have order : ∀ (H r' s : Nat), H = n.st.height → SamePos n.st W.st → W.st.round = r' → s ≤ 3 → n.st.consensusPower = true → n.sys.smr.height = n.st.height →
      (obs W.log).filterMap place = [] ∨ (obs W.log).filterMap place = [⟨n.st.height, r', s⟩] →
      (∀ st, .high st ∉ obs W.log) →
      (∀ p, WChain n.st.height p n.st.round n.stQ n.sys.smr →
        Pos.le p ⟨n.st.height, r', s⟩ ∧ WChain n.st.height ⟨n.st.height, r', s⟩ r' n1.stQ n.sys.smr) →
      ((n1.took cut (runArm i e ⟨n.st, []⟩)).down = false →
        Led (placesOf (n1.took cut (runArm i e ⟨n.st, []⟩)).log) (n1.took cut (runArm i e ⟨n.st, []⟩))) ∧
      Sorted (placesOf n.log ++ placesOf W.log) := by
    intro H r' s hH q1 q2 q3 hp hm q4 q5 q6
    obtain ⟨p, c0, c1, c2⟩ := chainAt hp hm
    obtain ⟨c3, c4⟩ := q6 p c2
    rw [← placesOf_obs] at q4
    have hb : ∀ x ∈ placesOf n.log, Onward x ⟨n.st.height, r', s⟩ := fun x hx => onw_le (c1 x hx) c0 c3
    have hq : ∀ x ∈ placesOf W.log, x = ⟨n.st.height, r', s⟩ := by
      intro x hx
      rcases q4 with q4 | q4 <;> rw [q4] at hx
      · cases hx
      · exact List.mem_singleton.1 hx
    refine same q1 q5 ?_ ?_ ?_ ?_
    · rcases q4 with q4 | q4
      · exact .inl q4
      · exact .inr ⟨s, by rw [q4, q2], by omega, hm⟩
    · intro p hp q hq'; rw [hq q hq']; exact hb p hp
    · intro _ x hx; rw [q2]; exact onw_le (hb x hx) q3 (.inr ⟨rfl, .inr ⟨rfl, by dsimp only; omega⟩⟩)
    · intro _ _ _
      refine ⟨_, q3, ?_, by rw [q2]; exact c4⟩
      intro x hx
      rcases List.mem_append.1 hx with hx | hx
      · exact hb x hx
      · rw [hq x hx]; exact onw_refl _
  by_cases hidle : ∃ ev, i = .event ev ∧ (n.st.consensusPower = false ∨ n.st.stopped = true)
  · obtain ⟨ev, rfl, hid⟩ := hidle
    have hq := event_idle (e := e) (ev := ev) hid
    rw [hW] at hq
    refine still (by rw [hq]; exact .refl _) (by rw [hq]) (by rw [hq]; rfl) ?_
    intro hup hpw
    rcases hid with hid | hid
    · rw [hpw] at hid; cases hid
    · obtain ⟨_, hr⟩ := took_up hup
      rw [stopped_ends hid] at hr
      cases hr
  have hid : ∀ ev, i = .event ev → n.st.consensusPower = true ∧ n.st.stopped = false := by
    intro ev hev
    have : ¬ (n.st.consensusPower = false ∨ n.st.stopped = true) := fun hh => hidle ⟨ev, hev, hh⟩
    simpa only [not_or, Bool.not_eq_false, Bool.not_eq_true] using this
  have pop : ∀ ev, i = .event ev → n.stQ = ev :: n1.stQ ∧ a = .event := by
    intro ev hev
    rcases e4 with ⟨_, e5⟩ | ⟨ha, ev', hev', e4⟩
    · exact absurd hev (e5 _)
    · rw [hev] at hev'; cases hev'; exact ⟨e4, ha⟩
  have insync : ∀ ev k, i = .event ev → orderHeight ev = some k → k = n.st.height ∧ n.sys.smr.height = n.st.height := by
    intro ev k hev hk
    obtain ⟨hq, rfl⟩ := pop ev hev
    have h1 := ok _ _ _ hq hk
    have h2 := hl.evLe ev (by rw [hq]; exact List.mem_cons_self ..) k hk
    have h3 := hl.smrLe
    exact ⟨h1, by omega⟩
  have hout := arm_out e n.st i hi
  rw [hW] at hout
  cases hout with
  | quiet q1 q2 q3 =>
    refine still q2 q3 q1 fun hup hp hm p h3 hc => ?_
    by_cases hev : ∃ ev, i = .event ev
    · obtain ⟨ev, rfl⟩ := hev
      have hid := hid ev rfl
      obtain ⟨hq, rfl⟩ := pop ev rfl
      have hout := event_out e n.st ev hid.1 hid.2
      rw [hW] at hout
      rw [hq] at hc
      cases hout with
      | newRound k r lr lp f ni nc o =>
        obtain ⟨g1, _⟩ := insync _ k rfl rfl
        subst g1
        simp only [WChain, if_true] at hc
        have := o.round
        rw [q3] at this
        rw [this]
        exact ⟨_, by dsimp only; omega, hc.1, hc.2⟩
      | prevote k r hash lr o =>
        obtain ⟨g1, _⟩ := insync _ k rfl rfl
        subst g1
        simp only [WChain, if_true] at hc
        exact ⟨_, by dsimp only; omega, hc.1, hc.2⟩
      | precommit k r hash lr o =>
        obtain ⟨g1, _⟩ := insync _ k rfl rfl
        subst g1
        simp only [WChain, if_true] at hc
        exact ⟨_, by dsimp only; omega, hc.1, hc.2⟩
      | commit hash o => exact ⟨p, h3, Pos.le_refl _, hc⟩
      | brake r lr o =>
        simp only [WChain, if_true] at hc
        exact ⟨_, by dsimp only; omega, hc.1, hc.2⟩
      | stale k r lr hh hw =>
        simp only [WChain] at hc
        rw [if_neg hh] at hc
        exact ⟨p, h3, Pos.le_refl _, hc⟩
      | stop hw => exact ⟨p, h3, Pos.le_refl _, hc⟩
    · rcases e4 with ⟨e4, _⟩ | ⟨_, ev, he, _⟩
      · rw [e4]; exact ⟨p, h3, Pos.le_refl _, hc⟩
      · exact absurd ⟨ev, he⟩ hev
  | status st hst o =>
    have hq : n1.stQ = n.stQ := by
      rcases e4 with ⟨e4, _⟩ | ⟨_, ev, he, _⟩
      · exact e4
      · rw [hst] at he; cases he
    rcases moves_places o with ⟨m1, m2, _⟩ | ⟨m1, m2, m3⟩
    · exact still (by rw [m1]; exact .refl _) (by rw [m1]) m2 (fun _ _ _ p h3 hc => ⟨p, h3, Pos.le_refl _, by rw [hq]; exact hc⟩)
    · refine away m1 m2 ?_ ?_ ?_
      · rcases m3 with m3 | m3 <;> rw [m3]
        · exact .nil
        · exact List.pairwise_singleton _ _
      · rcases m3 with m3 | m3 <;> rw [m3] <;> intro q hq
        · cases hq
        · rw [List.mem_singleton.1 hq]; exact onw_refl _
      · intro p hp q hq
        rcases m3 with m3 | m3 <;> rw [m3] at hq
        · cases hq
        · rw [List.mem_singleton.1 hq]; have := h.hP p hp; left; dsimp only; omega
  | event ev hev hp o =>
    subst hev
    have hid := hid ev rfl
    obtain ⟨hq, rfl⟩ := pop ev rfl
    cases o with
    | newRound k r lr lp f ni nc o =>
      obtain ⟨g1, g2⟩ := insync _ k rfl rfl
      subst g1
      refine order _ r 0 rfl o.same o.round (by omega) hp g2 ?_ ?_ ?_
      · rcases o.out with ho | ⟨lock, u, _, ho⟩ <;> rw [ho]
        · exact .inl rfl
        · exact .inr rfl
      · rcases o.out with ho | ⟨lock, u, _, ho⟩ <;> rw [ho] <;> simp
      · intro p hc; rw [hq] at hc; simp only [WChain, if_true] at hc; exact hc
    | prevote k r hash lr o =>
      obtain ⟨g1, g2⟩ := insync _ k rfl rfl
      subst g1
      refine order _ _ 1 rfl o.same o.round (by omega) hp g2 ?_ ?_ ?_
      · rcases o.out with ho | ⟨lock, sv, _, _, _, ho⟩ <;> rw [ho]
        · exact .inl rfl
        · exact .inr rfl
      · rcases o.out with ho | ⟨lock, sv, _, _, _, ho⟩ <;> rw [ho] <;> simp
      · intro p hc; rw [hq] at hc; simp only [WChain, if_true] at hc; exact hc
    | precommit k r hash lr o =>
      obtain ⟨g1, g2⟩ := insync _ k rfl rfl
      subst g1
      refine order _ _ 2 rfl o.same o.round (by omega) hp g2 ?_ ?_ ?_
      · rcases o.out with ho | ⟨lock, sv, _, _, _, ho⟩ <;> rw [ho]
        · exact .inl rfl
        · exact .inr rfl
      · rcases o.out with ho | ⟨lock, sv, _, _, _, ho⟩ <;> rw [ho] <;> simp
      · intro p hc; rw [hq] at hc; simp only [WChain, if_true] at hc; exact hc
    | commit hash o =>
      rcases commit_places o ok2 with ⟨m1, m2⟩ | ⟨m1, m2, m3⟩
      · refine still (by rw [m1]; exact .refl _) (by rw [m1]) m2 (fun _ _ _ p h3 hc => ⟨p, h3, Pos.le_refl _, ?_⟩)
        rw [hq] at hc; exact hc
      · have hgp := h.gP hp
        refine away m1 m2 ?_ ?_ ?_
        · rcases m3 with m3 | m3 <;> rw [m3]
          · exact List.pairwise_singleton _ _
          · refine List.Pairwise.cons (fun q hq => ?_) (List.pairwise_singleton _ _)
            rw [List.mem_singleton.1 hq]; left; exact m1
        · intro q hq
          have : q = ⟨n.st.height, n.st.round, 4⟩ ∨ q = ⟨W.st.height, 0, 0⟩ := by
            rcases m3 with m3 | m3 <;> rw [m3] at hq <;> simp at hq
            · exact .inl hq
            · exact hq
          rcases this with rfl | rfl
          · left; exact m1
          · exact onw_refl _
        · intro p hp' q hq
          have : q = ⟨n.st.height, n.st.round, 4⟩ ∨ q = ⟨W.st.height, 0, 0⟩ := by
            rcases m3 with m3 | m3 <;> rw [m3] at hq <;> simp at hq
            · exact .inl hq
            · exact hq
          rcases this with rfl | rfl
          · exact hgp p hp'
          · left; have := h.hP p hp'; dsimp only; omega
    | brake r lr o =>
      have g2 : n.sys.smr.height = n.st.height := by
        have := h.brk.stq n.st.height r lr (by rw [hq]; exact List.mem_cons_self ..)
        have := hl.smrLe
        omega
      refine order _ _ 3 rfl o.same o.round (by omega) hp g2 ?_ ?_ ?_
      · rcases o.out with ho | ⟨lock, _, ho⟩ <;> rw [ho]
        · exact .inl rfl
        · exact .inr rfl
      · rcases o.out with ho | ⟨lock, _, ho⟩ <;> rw [ho] <;> simp
      · intro p hc; rw [hq] at hc; simp only [WChain, if_true] at hc; exact hc
    | stale k r lr hh hw =>
      refine still (by rw [hw]; exact .refl _) (by rw [hw]) (by rw [hw]; rfl) (fun _ _ _ p h3 hc => ⟨p, h3, Pos.le_refl _, ?_⟩)
      rw [hq] at hc; simp only [WChain] at hc; rw [if_neg hh] at hc; exact hc
    | stop hw =>
      refine still (by rw [hw]; exact .refl _) (by rw [hw]) (by rw [hw]; rfl) (fun _ _ _ p h3 hc => ⟨p, h3, Pos.le_refl _, ?_⟩)
      rw [hq] at hc; exact hc

/-! ## A start -/

theorem last_max {l : List Pos} (h : Sorted l) {x : Pos} (hx : l.getLast? = some x) : ∀ p ∈ l, Onward p x := by
  intro p hp
  obtain ⟨hne, rfl⟩ := List.getLast?_eq_some_iff.1 hx |> fun ⟨ys, e⟩ => (⟨by rw [e]; simp, (by rw [← Option.some.injEq, ← hx]; simp [e])⟩ : ∃ hne : l ≠ [], l.getLast hne = x)
  rw [← List.dropLast_append_getLast hne] at hp h
  rcases List.mem_append.1 hp with hp | hp
  · exact (List.pairwise_append.1 h).2.2 p hp _ (by simp)
  · rw [List.mem_singleton.1 hp]; exact onw_refl _

/-- What is known when a node starts, about the places of its records. -/
def Known (e : Env T) (listed : Bool) (h0 : Nat) (P : List Pos) : Prop :=
  (listed = false ∧ ∀ p ∈ P, p.height ≤ h0) ∨
  (listed = true ∧ e.walLoad = some none ∧ P = []) ∨
  (listed = true ∧ ∃ (w : WalInfo T) (b : Bytes), e.walLoad = some (some b) ∧ decWalInfo b = .ok w ∧ w.height ≠ 0 ∧
    ∀ p ∈ P, Onward p (recPos w))

theorem known_start {addr : Address} {n : NodeSys T} {p : StartParams} {e : Env T} {cut : Option Nat} (hg : Sorted (placesOf n.log))
    (ok : StartOk addr n (.start p e cut)) :
    Known e (p.list.map Node.address |>.contains addr) p.initHeight (placesOf n.log) := by
  simp only [StartOk] at ok
  split at ok
  · rename_i hl
    rw [hl]
    right
    unfold lastSaved at ok
    split at ok
    · rename_i hn
      refine .inl ⟨rfl, ok, ?_⟩
      rw [List.getLast?_eq_none_iff] at hn
      unfold placesOf; rw [hn]; rfl
    · rename_i w hw
      obtain ⟨h0, b, h1, h2⟩ := ok
      refine .inr ⟨rfl, w, b, h1, h2, h0, last_max hg ?_⟩
      unfold placesOf
      rw [List.getLast?_map, hw]; rfl
  · rename_i hl
    refine .inl ⟨(Bool.not_eq_true _).mp hl, fun v hv => ?_⟩
    obtain ⟨w, hw, rfl⟩ := List.mem_map.1 hv
    exact ok w hw

theorem drain_wal' (n : NodeSys T) (b : SMRBase) (hb : b.step ≠ .commit) :
    n.drain [walTrig b] =
      { n with sys := { n.sys with smr := (n.sys.smr.handleWal b).next,
                                   evtQ := n.sys.evtQ ++ (n.sys.smr.handleWal b).outs.map Out.event } } := by
  have h : n.sys.smr.onTrigger (walTrig b) = n.sys.smr.handleWal b := rfl
  obtain ⟨e, he⟩ : ∃ e, n.sys.smr.handleWal b = ⟨(n.sys.smr.handleWal b).next, [.timerOnly e], .ok⟩ := by
    unfold Smr.handleWal Smr.timerEventAfterWal
    cases hs : b.step <;> simp_all
  simp only [NodeSys.drain, h]
  rw [he]
  simp [Out.event, Out.toState]

theorem led_drain1 {P : List Pos} {n : NodeSys T} {t : SMRTrigger} (h : Led P { n with sys := { n.sys with trigQ := [t] } })
    (hw : NotWal t) (hr : t.round < 2 ^ 64 - 1) (hs : n.stQ = []) (hq : n.sys.trigQ = []) (hd : (n.drain [t]).down = false) :
    Led P (n.drain [t]) := by
  have step : Led P { n with
      sys := { n.sys with smr := (n.sys.smr.onTrigger t).next,
                          evtQ := n.sys.evtQ ++ (n.sys.smr.onTrigger t).outs.map Out.event, trigQ := [] }
      stQ := n.stQ ++ (n.sys.smr.onTrigger t).outs.filterMap Out.toState } :=
    led_smr (t := t) (q := []) h hw (by rw [show (_ : NodeSys T).stQ = [] from hs]; simp) rfl hr rfl rfl rfl
  have hb := step.brk
  simp only [NodeSys.drain] at hd ⊢
  split at hd
  · refine led_frame step rfl rfl rfl (by simp [hq]) ⟨hb.evt, hb.arm, hb.ntf, ?_, hb.stq⟩
    rw [show (_ : NodeSys T).sys.trigQ = n.sys.trigQ from rfl, hq]; simp
  · refine led_frame step rfl rfl rfl (by simp [hq]) ⟨hb.evt, hb.arm, hb.ntf, ?_, hb.stq⟩
    rw [show (_ : NodeSys T).sys.trigQ = n.sys.trigQ from rfl, hq]; simp
  · simp at hd
  · simp at hd

theorem start_led {addr : Address} {p : StartParams} {log : List (Effect T)} {e : Env T} {w : World T} {P : List Pos} (hsP : Sorted P)
    (hkn : Known e (p.list.map Node.address |>.contains addr) p.initHeight P) (ok2 : CommitsSucceed e)
    (o : StartOut e (State.new addr p.initHeight p.interval p.list) w) :
    Sorted (P ++ placesOf w.log) ∧
    ((NodeSys.started addr p log w).down = false → Led (P ++ placesOf w.log) (NodeSys.started addr p log w)) := by
  generalize hS : State.new addr p.initHeight p.interval p.list = S at *
  have hpow : S.consensusPower = (p.list.map Node.address |>.contains addr) := by
    rw [← hS]
    have := update_contains p.list addr
    simp only [State.new]
    rw [Bool.eq_iff_iff, this, List.contains_iff_mem]
  have hSh : S.height = p.initHeight := by rw [← hS]; rfl
  rw [← hpow] at hkn
  -- a node whose machine has not been told anything
  have quiet : ∀ (P : List Pos) (s : State T), (∀ p ∈ P, p.height ≤ s.height) →
      (s.consensusPower = true → ∀ p ∈ P, Onward p ⟨s.height, s.round, 4⟩) →
      (s.consensusPower = true → s.height = 0 → P = [] ∧ s.round = 0) →
      ∀ n' : NodeSys T, n'.st = s → n'.sys = TimerSys.boot p.interval p.timerConfig none → n'.stQ = [] → Led P n' := by
    intro P s g1 g2 g3 n' e2 e3 e4
    refine ⟨by rw [e2]; exact g1, by rw [e2]; exact g2, by rw [e3]; simp [TimerSys.boot], ?_, ?_⟩
    · rw [e2, e3, e4]
      intro hp hh
      obtain ⟨h1, h2⟩ := g3 hp hh.symm
      rw [h1]
      refine ⟨⟨0, 0, 0⟩, by simp, by simp, ?_⟩
      simp [WChain, TimerSys.boot, Smr.init, pos3, Pos.le, h2, INIT_ROUND, INIT_HEIGHT]
    · rw [e3, e4]
      exact ⟨by simp [TimerSys.boot], by simp [TimerSys.boot], by simp [TimerSys.boot], by simp [TimerSys.boot], by simp⟩
  -- a machine that has taken over a position
  have resumed : ∀ (P : List Pos) (s : State T) (b : SMRBase), s.height = b.height → s.round = b.round → b.step ≠ .commit →
      (∀ p ∈ P, Onward p ⟨b.height, b.round, b.step.toNat⟩) →
      ∀ n' : NodeSys T, n'.st = s → n'.sys = { TimerSys.boot p.interval p.timerConfig none with
        smr := (Smr.init.handleWal b).next, evtQ := (Smr.init.handleWal b).outs.map Out.event } → n'.stQ = [] → Led P n' := by
    intro P s b g1 g2 g0 g3 n' e2 e3 e4
    have hm : (Smr.init.handleWal b).next.height = b.height ∧ (Smr.init.handleWal b).next.round = b.round ∧ (Smr.init.handleWal b).next.step = b.step := by
      unfold Smr.handleWal; dsimp only; split <;> exact ⟨rfl, rfl, rfl⟩
    obtain ⟨m1, m2, m3⟩ := hm
    refine ⟨?_, ?_, ?_, ?_, ?_⟩
    · rw [e2, g1]; intro p hp; have := g3 p hp; simp only [Onward] at this; omega
    · rw [e2, g1, g2]
      intro _ p hp
      refine onw_le (g3 p hp) ?_ (.inr ⟨rfl, .inr ⟨rfl, ?_⟩⟩)
      · revert g0; cases b.step <;> simp
      · cases b.step <;> simp
    · rw [e3]; simp [TimerSys.boot]
    · rw [e2, e3, e4, g1]
      intro _ _
      refine ⟨_, by revert g0; cases b.step <;> simp, g3, ?_⟩
      simp only [WChain, pos3, m1, m2, m3, g2, and_true]
      refine .inr ⟨rfl, .inr ⟨rfl, ?_⟩⟩
      revert g0
      cases b.step <;> simp
    · rw [e3, e4]
      refine ⟨?_, by simp [TimerSys.boot], by simp [TimerSys.boot], by simp [TimerSys.boot], by simp⟩
      intro k r lr hk
      simp only [pos, m1, m2, m3]
      revert hk
      unfold Smr.handleWal Smr.timerEventAfterWal
      cases hs : b.step <;> simp [Out.event, hs]
      rintro rfl rfl rfl
      exact Pos.le_refl _
  -- what is known about a record
  have known : ∀ (w : WalInfo T) b, S.consensusPower = true → e.walLoad = some (some b) → decWalInfo b = .ok w →
      w.height ≠ 0 ∧ ∀ p ∈ P, Onward p (recPos w) := by
    intro w b hp hl hw
    rcases hkn with ⟨h, _⟩ | ⟨_, h, _⟩ | ⟨_, w', b', h1, h2, h3, h4⟩
    · rw [hp] at h; cases h
    · rw [hl] at h; cases h
    · rw [hl] at h1; cases h1; rw [hw] at h2; cases h2; exact ⟨h3, h4⟩
  have hle : ∀ {w : WalInfo T}, (∀ p ∈ P, Onward p (recPos w)) → ∀ p ∈ P, p.height ≤ w.height := by
    intro w h p hp; have := h p hp; simp only [Onward, recPos] at this; omega
  have hle4 : ∀ {w : WalInfo T}, (∀ p ∈ P, Onward p (recPos w)) → ∀ p ∈ P, Onward p ⟨w.height, w.round, 4⟩ := by
    intro w h p hp
    have h := h p hp
    revert h
    unfold Onward recPos
    dsimp only
    cases w.step <;> simp <;> omega
  have noNew : ∀ {w : World T}, obs w.log = [] → P ++ placesOf w.log = P := by
    intro w h; rw [placesOf_obs, h]; simp
  cases o with
  | idle hw h =>
    subst hw
    rw [noNew rfl]
    have h0 : S.consensusPower = false ∨ P = [] := by
      rcases hkn with ⟨h1, _⟩ | ⟨_, _, h1⟩ | ⟨hp, w', b', h1, h2, h3, h4⟩
      · exact .inl h1
      · exact .inr h1
      · rcases h hp with h | h
        · rcases h with h | ⟨b, x, h, h'⟩
          · rw [h1] at h; cases h
          · rw [h1] at h; cases h; rw [h2] at h'; cases h'
        · rw [h1] at h; cases h.1
    refine ⟨hsP, fun _ => quiet P S ?_ ?_ ?_ _ (by unfold NodeSys.started; rw [drain_st]) rfl rfl⟩
    · rcases h0 with h0 | h0
      · rcases hkn with ⟨_, h1⟩ | ⟨h1, _⟩ | ⟨h1, _⟩
        · rw [hSh]; exact h1
        · rw [h0] at h1; cases h1
        · rw [h0] at h1; cases h1
      · rw [h0]; simp
    · intro hp
      rcases h0 with h0 | h0
      · rw [hp] at h0; cases h0
      · rw [h0]; simp
    · intro hp _
      rcases h0 with h0 | h0
      · rw [hp] at h0; cases h0
      · exact ⟨h0, by rw [← hS]; rfl⟩
  | fresh hp hl hh hw =>
    subst hw
    have hP : P = [] := by
      rcases hkn with ⟨h1, _⟩ | ⟨_, h1, h2⟩ | ⟨hp, w', b', h1, _⟩
      · rw [hp] at h1; cases h1
      · exact h2
      · rw [hl] at h1; cases h1
    rw [noNew (by simp [obs, obsOf, walTrig, stTrigger, releasedVote])]
    refine ⟨hsP, fun _ => ?_⟩
    have hdr := drain_wal' ({ (NodeSys.fresh addr p log).absorb
          [.trigger (walTrig { height := S.height, round := S.round, step := .propose, polc := none })] with
        sys := { (NodeSys.fresh addr p log : NodeSys T).sys with trigQ := [] }, st := S, down := false } : NodeSys T)
        { height := S.height, round := S.round, step := .propose, polc := none } (by simp)
    have : NodeSys.started addr p log ⟨S, [.trigger (walTrig { height := S.height, round := S.round, step := .propose, polc := none })]⟩ = _ := hdr
    rw [this]
    exact resumed P S { height := S.height, round := S.round, step := .propose, polc := none } rfl rfl (by simp) (by rw [hP]; simp) _ rfl rfl rfl
  | noLeader b rec x hp hl hdec hx hw =>
    subst hw
    obtain ⟨h1, h2⟩ := known rec b hp hl hdec
    rw [noNew rfl]
    exact ⟨hsP, fun _ => quiet P { S with height := rec.height, round := rec.round } (hle h2) (fun _ => hle4 h2) (fun _ h => absurd h h1) _
      (by unfold NodeSys.started; rw [drain_st]) rfl rfl⟩
  | noLock b rec pr hp hl hdec hx hst hlk hw =>
    subst hw
    obtain ⟨h1, h2⟩ := known rec b hp hl hdec
    obtain ⟨r1, r2, r3, r4⟩ := restored_pos S rec pr
    rw [noNew rfl]
    exact ⟨hsP, fun _ => quiet P (S.restored rec pr) (by rw [r1]; exact hle h2) (fun _ => by rw [r1, r2]; exact hle4 h2) (fun _ h => absurd (r1.symm.trans h) h1) _
      (by unfold NodeSys.started; rw [drain_st]) rfl rfl⟩
  | commit b rec pr lock hp hl hdec hx hst hlk o =>
    obtain ⟨h1, h2⟩ := known rec b hp hl hdec
    obtain ⟨r1, r2, r3, r4⟩ := restored_pos S rec pr
    have same : ∀ w' : World T, w'.st = S.restored rec pr → obs w'.log = [] → (∀ t, .trigger t ∉ w'.log) →
        Sorted (P ++ placesOf w'.log) ∧
          ((NodeSys.started addr p log w').down = false → Led (P ++ placesOf w'.log) (NodeSys.started addr p log w')) := by
      intro w' hs ho hno
      have hts : trigsOf w'.log = [] := List.eq_nil_iff_forall_not_mem.2 fun t ht => hno t (mem_trigsOf.1 ht)
      rw [noNew ho]
      refine ⟨hsP, fun _ => quiet P w'.st (by rw [hs, r1]; exact hle h2) (fun _ => by rw [hs, r1, r2]; exact hle4 h2)
        (fun _ h => absurd (r1.symm.trans (by rw [← hs]; exact h)) h1) _ (by unfold NodeSys.started; rw [drain_st]) ?_ ?_⟩
      all_goals
        unfold NodeSys.started
        rw [hts]
        simp [NodeSys.drain, NodeSys.absorb, NodeSys.fresh, TimerSys.boot]
    have h24 : ∀ p ∈ P, Onward p ⟨rec.height, rec.round, 4⟩ := hle4 h2
    -- the block is committed
    have gone : ∀ (w' : World T) (Q : List Pos), placesOf w'.log = ⟨rec.height, rec.round, 4⟩ :: Q →
        (Q = [] ∨ Q = [⟨w'.st.height, 0, 0⟩]) → rec.height < w'.st.height →
        Sorted (P ++ placesOf w'.log) ∧ ∀ x ∈ P ++ placesOf w'.log, Onward x ⟨w'.st.height, 0, 0⟩ := by
      intro w' Q hq hQ hlt
      rw [hq]
      have hlow : ∀ {x : Pos}, Onward x ⟨rec.height, rec.round, 4⟩ → Onward x ⟨w'.st.height, 0, 0⟩ := by
        intro x hx; simp only [Onward] at hx ⊢; omega
      constructor
      · refine sorted_add hsP (List.Pairwise.cons (fun q hq => ?_) ?_) (fun x hx q hq => ?_)
        · rcases hQ with hQ | hQ <;> rw [hQ] at hq
          · cases hq
          · rw [List.mem_singleton.1 hq]; exact .inl hlt
        · rcases hQ with hQ | hQ <;> rw [hQ]
          · exact .nil
          · exact List.pairwise_singleton _ _
        · rcases List.mem_cons.1 hq with rfl | hq
          · exact h24 x hx
          · rcases hQ with hQ | hQ <;> rw [hQ] at hq
            · cases hq
            · rw [List.mem_singleton.1 hq]; exact hlow (h24 x hx)
      · intro x hx
        rcases List.mem_append.1 hx with hx | hx
        · exact hlow (h24 x hx)
        · rcases List.mem_cons.1 hx with rfl | hx
          · exact .inl hlt
          · rcases hQ with hQ | hQ <;> rw [hQ] at hx
            · cases hx
            · rw [List.mem_singleton.1 hx]; exact onw_refl _
    have low : ∀ {x : Pos} {k r : Nat}, Onward x ⟨k, 0, 0⟩ → x.height ≤ k ∧ Onward x ⟨k, r, 4⟩ := by
      intro x k r hx; simp only [Onward] at hx ⊢; omega
    cases o with
    | none => exact same _ rfl rfl (by simp)
    | lost content qc => exact same _ rfl (by simp [obs, obsOf, releasedVote]) (by simp)
    | failed content qc hb hq hs hc =>
      obtain ⟨st, g1, _⟩ := ok2 (S.restored rec pr).height (mkCommit (S.restored rec pr) lock.lockVotes.blockHash content qc)
      rw [hc] at g1; cases g1
    | stuck content qc status x hb hq hs hc hx =>
      obtain ⟨st, g1, _, l, g2⟩ := ok2 (S.restored rec pr).height (mkCommit (S.restored rec pr) lock.lockVotes.blockHash content qc)
      rw [hc] at g1; cases g1
      rw [hx] at g2; cases g2
    | done content qc status w2 hb hq hs hc hm =>
      obtain ⟨st, g1, g2, _⟩ := ok2 (S.restored rec pr).height (mkCommit (S.restored rec pr) lock.lockVotes.blockHash content qc)
      rw [hc] at g1; cases g1
      have hlt : rec.height < status.height := by rw [← r1]; exact g2
      have hpl : placesOf ([Effect.saveWal (commitRec (S.restored rec pr) qc content) true,
            .commitCall (S.restored rec pr).height (mkCommit (S.restored rec pr) lock.lockVotes.blockHash content qc) (some status)] ++ w2.log) =
          ⟨rec.height, rec.round, 4⟩ :: placesOf w2.log := by
        rw [placesOf_append, ← r1, ← r2]; rfl
      cases hm with
      | stay hh => exact absurd g2 (by have : status.height ≤ (S.restored rec pr).height := hh; omega)
      | away hh hpw =>
        obtain ⟨c1, c2⟩ := gone ⟨({ S.restored rec pr with authority := Authority.update status.authorityList } : State T).moved status, _⟩ _ hpl (.inl rfl) hlt
        refine ⟨c1, fun _ => quiet _ _ (fun x hx => (low (r := 0) (c2 x hx)).1) (fun _ x hx => (low (c2 x hx)).2) ?_ _
          (by unfold NodeSys.started; rw [drain_st]) (by simp [NodeSys.started, NodeSys.drain, trigsOf, NodeSys.absorb, NodeSys.fresh, TimerSys.boot]) (by simp [NodeSys.started, NodeSys.drain, trigsOf, NodeSys.absorb, NodeSys.fresh, TimerSys.boot])⟩
        intro _ h; exfalso; have : status.height = 0 := h; omega
      | lost hh hpw hs' =>
        obtain ⟨c1, c2⟩ := gone ⟨({ S.restored rec pr with authority := Authority.update status.authorityList } : State T).moved status, _⟩ _ hpl (.inl rfl) hlt
        refine ⟨c1, fun _ => quiet _ _ (fun x hx => (low (r := 0) (c2 x hx)).1) (fun _ x hx => (low (c2 x hx)).2) ?_ _
          (by unfold NodeSys.started; rw [drain_st]) (by simp [NodeSys.started, NodeSys.drain, trigsOf, NodeSys.absorb, NodeSys.fresh, TimerSys.boot]) (by simp [NodeSys.started, NodeSys.drain, trigsOf, NodeSys.absorb, NodeSys.fresh, TimerSys.boot])⟩
        intro _ h; exfalso; have : status.height = 0 := h; omega
      | adopt hh hpw hs' =>
        have hq2 : placesOf (Effect.saveWal (walRec (({ S.restored rec pr with authority := Authority.update status.authorityList } : State T).moved status) .propose none) true ::
            ((({ S.restored rec pr with authority := Authority.update status.authorityList } : State T).recheck e.sh status).map fun m => Effect.spawnVerify m (Authority.update status.authorityList)) ++
            [.trigger (stTrigger (.newHeight status.toSMR) [] none INIT_ROUND status.height)]) = [⟨status.height, 0, 0⟩] := by
          rw [placesOf_obs, obs_adopt _ _ _ _ status.toSMR rfl]; rfl
        obtain ⟨c1, c2⟩ := gone ⟨({ S.restored rec pr with authority := Authority.update status.authorityList } : State T).adopted e.sh status, _⟩ _ hpl (.inr hq2) hlt
        refine ⟨c1, fun hd => ?_⟩
        generalize hW : (⟨_, _⟩ : World T) = W at c1 c2 hd ⊢
        have hts : trigsOf W.log = [stTrigger (.newHeight status.toSMR) [] none INIT_ROUND status.height] := by
          rw [← hW]
          simp [trigsOf, List.filterMap_append, List.filterMap_map, Function.comp_def]
        have hst : W.st.height = status.height := by rw [← hW]; rfl
        unfold NodeSys.started at hd ⊢
        rw [hts] at hd ⊢
        refine led_drain1 ⟨?_, ?_, ?_, ?_, ?_⟩ (by simp [NotWal, stTrigger]) (by simp [stTrigger, INIT_ROUND]) (by simp [NodeSys.absorb, NodeSys.fresh]) rfl hd
        · intro x hx; exact (low (r := 0) (c2 x hx)).1
        · intro _ x hx; exact (low (c2 x hx)).2
        · intro t ht st hst' _ heq x hx
          have : st.height = W.st.height := heq
          rw [this]; exact c2 x hx
        · intro _ heq
          exfalso
          have : 0 = W.st.height := heq
          omega
        · refine ⟨by simp [NodeSys.fresh, NodeSys.absorb, TimerSys.boot], by simp [NodeSys.fresh, NodeSys.absorb, TimerSys.boot],
            by simp [NodeSys.fresh, NodeSys.absorb, TimerSys.boot], ?_, by simp [NodeSys.fresh, NodeSys.absorb]⟩
          intro t ht h1'
          have : t = stTrigger (.newHeight status.toSMR) [] none INIT_ROUND status.height := by simpa using ht
          subst this
          simp [stTrigger] at h1'
  | brake b rec pr hp hl hdec hx hst w1 o hw =>
    obtain ⟨h1, h2⟩ := known rec b hp hl hdec
    obtain ⟨r1, r2, r3, r4⟩ := restored_pos S rec pr
    have hts : ∀ t ∈ trigsOf w1.log, t.triggerType = .continueRound ∧ t.height ≠ 0 := by
      intro t ht
      obtain ⟨a, b⟩ := o.trigs t (mem_trigsOf.1 ht)
      exact ⟨a, by rw [b, r1]; exact h1⟩
    have hob : obs w.log = obs w1.log := by
      rcases hw with hw | hw
      · rw [hw]
      · rw [hw]; dsimp only; rw [obs_append]; simp [obs, obsOf, walTrig, stTrigger, releasedVote]
    have hq : placesOf w.log = [] ∨ placesOf w.log = [recPos rec] := by
      rw [placesOf_obs, hob]
      rcases o.out with ho | ⟨lk, _, ho⟩ <;> rw [ho]
      · exact .inl rfl
      · right
        simp only [List.filterMap_cons, List.filterMap_nil, place, recPos, walRec, r1, r2, hst]
    have hall : ∀ x ∈ P ++ placesOf w.log, Onward x (recPos rec) := by
      intro x hx
      rcases List.mem_append.1 hx with hx | hx
      · exact h2 x hx
      · rcases hq with hq | hq <;> rw [hq] at hx
        · cases hx
        · rw [List.mem_singleton.1 hx]; exact onw_refl _
    have hsort : Sorted (P ++ placesOf w.log) := by
      refine sorted_add hsP ?_ (fun x hx q hq' => ?_)
      · rcases hq with hq | hq <;> rw [hq]
        · exact .nil
        · exact List.pairwise_singleton _ _
      · rcases hq with hq | hq <;> rw [hq] at hq'
        · cases hq'
        · rw [List.mem_singleton.1 hq']; exact h2 x hx
    have a1 : ∀ x ∈ P ++ placesOf w.log, x.height ≤ rec.height := by
      intro x hx; have := hall x hx; simp only [Onward, recPos] at this; omega
    have a2 : ∀ x ∈ P ++ placesOf w.log, Onward x ⟨rec.height, rec.round, 4⟩ := by
      intro x hx
      refine onw_le (hall x hx) (by simp only [recPos, hst]; decide) (.inr ⟨rfl, .inr ⟨rfl, ?_⟩⟩)
      simp only [recPos, hst]; decide
    refine ⟨hsort, ?_⟩
    generalize P ++ placesOf w.log = P' at *
    intro hd
    rcases hw with rfl | rfl
    · have hdr := drain_idle (trigsOf w.log) [] ({ (NodeSys.fresh addr p log).absorb w.log with
        sys := { (NodeSys.fresh addr p log : NodeSys T).sys with trigQ := [] }, st := w.st, down := false } : NodeSys T)
        hts (by rw [List.append_nil]; exact hd)
      rw [List.append_nil] at hdr
      unfold NodeSys.started
      rw [hdr]
      exact quiet P' w.st (by rw [o.same.height, r1]; exact a1) (fun _ => by rw [o.same.height, o.round, r1, r2]; exact a2)
        (fun _ h => absurd ((o.same.height.trans r1).symm.trans h) h1) _ rfl rfl rfl
    · have hts2 : trigsOf (w1.log ++ [.trigger (walTrig rec.intoSmrBase)]) = trigsOf w1.log ++ [walTrig rec.intoSmrBase] := by
        rw [trigsOf_append]; rfl
      unfold NodeSys.started at hd ⊢
      dsimp only at hd ⊢
      rw [hts2] at hd ⊢
      have hdr := drain_idle _ _ _ hts hd
      rw [hdr]
      have hdw := drain_wal' ({ (NodeSys.fresh addr p log).absorb (w1.log ++ [.trigger (walTrig rec.intoSmrBase)]) with
        sys := { (NodeSys.fresh addr p log : NodeSys T).sys with trigQ := [] }, st := w1.st, down := false } : NodeSys T)
        rec.intoSmrBase (by simp [WalInfo.intoSmrBase, hst])
      rw [hdw]
      exact resumed P' w1.st rec.intoSmrBase (o.same.height.trans r1) (o.round.trans r2) (by simp [WalInfo.intoSmrBase, hst]) hall _ rfl rfl rfl
  | resume b rec pr hp hl hdec hx hst hsb hw =>
    subst hw
    obtain ⟨h1, h2⟩ := known rec b hp hl hdec
    obtain ⟨r1, r2, r3, r4⟩ := restored_pos S rec pr
    rw [noNew (by simp [obs, obsOf, walTrig, stTrigger, releasedVote])]
    refine ⟨hsP, fun _ => ?_⟩
    have hdw := drain_wal' ({ (NodeSys.fresh addr p log).absorb [.trigger (walTrig rec.intoSmrBase)] with
        sys := { (NodeSys.fresh addr p log : NodeSys T).sys with trigQ := [] }, st := S.restored rec pr, down := false } : NodeSys T)
        rec.intoSmrBase (by simp [WalInfo.intoSmrBase, hst])
    have : NodeSys.started addr p log ⟨S.restored rec pr, [.trigger (walTrig rec.intoSmrBase)]⟩ = _ := hdw
    rw [this]
    exact resumed P (S.restored rec pr) rec.intoSmrBase r1 r2 (by simp [WalInfo.intoSmrBase, hst]) h2 _ rfl rfl rfl

/-! ## Whole lives -/

/-- The invariant of a node's life. -/
structure Inv (n : NodeSys T) : Prop where
  votes : NodeInv n
  sorted : Sorted (placesOf n.log)
  led : n.down = false → Led (placesOf n.log) n

/-- Steps of the machine, the timer and the verifications. -/
theorem led_other {k : Nat} {p0 : Pos} {addr : Address} {n n' : NodeSys T} {a : NAct T} {P : List Pos} (h : Led P n) (hl : Live k p0 n)
    (ok : RoundSmall n a) (ha : n.act addr a = some n') (h1 : ∀ x e c, a ≠ .arm x e c) (h2 : ∀ p e c, a ≠ .start p e c)
    (h3 : a ≠ .crash) : Led P n' := by
  have hb := h.brk
  cases a with
  | start p e c => exact absurd rfl (h2 p e c)
  | crash => exact absurd rfl h3
  | arm x e c => exact absurd rfl (h1 x e c)
  | verifyDone c i =>
    simp only [NodeSys.act] at ha
    split at ha
    · cases ha
    · split at ha
      · cases ha
      · cases ha; exact led_frame h rfl rfl rfl (fun t ht => .inl ht) hb
  | checkDone i okb =>
    simp only [NodeSys.act] at ha
    split at ha
    · cases ha
    · split at ha
      · cases ha
      · cases ha; exact led_frame h rfl rfl rfl (fun t ht => .inl ht) hb
  | smr =>
    simp only [NodeSys.act] at ha
    split at ha
    · cases ha
    · split at ha
      · cases ha
      · rename_i t q hq
        split at ha
        · cases ha
        · rename_i sys hs
          cases ha
          have hw := (hl.trig t (by rw [hq]; simp)).1
          simp only [TimerSys.act, hq] at hs
          split at hs
          · cases hs; exact led_smr h hw hl.evLe hq (ok t q hq) rfl rfl rfl
          · cases hs; exact led_smr h hw hl.evLe hq (ok t q hq) rfl rfl rfl
          · cases hs
          · cases hs
  | set =>
    simp only [NodeSys.act] at ha
    split at ha
    · cases ha
    · obtain ⟨sys, hs, rfl⟩ := Option.map_eq_some_iff.1 ha
      simp only [TimerSys.act] at hs
      split at hs
      · cases hs
      · cases hs
      · rename_i ev q hne hq
        cases hs
        refine led_frame h rfl rfl rfl (fun t ht => .inl ht) ⟨?_, ?_, hb.ntf, hb.trg, hb.stq⟩
        · intro k r lr hk; exact hb.evt k r lr (by rw [hq]; exact List.mem_cons_of_mem _ hk)
        · intro x hx k r lr hk
          rcases List.mem_append.1 hx with hx | hx
          · exact hb.arm x hx k r lr hk
          · refine hb.evt k r lr ?_
            rw [hq]
            have : x.1 = ev := by
              cases ev <;> simp [Timer.setTimer] at hx <;> first | (obtain ⟨_, _, rfl⟩ := hx; rfl)
            rw [← this, hk]; exact List.mem_cons_self ..
  | expire i =>
    simp only [NodeSys.act] at ha
    split at ha
    · cases ha
    · obtain ⟨sys, hs, rfl⟩ := Option.map_eq_some_iff.1 ha
      simp only [TimerSys.act] at hs
      split at hs
      · cases hs
      · rename_i x hx
        cases hs
        refine led_frame h rfl rfl rfl (fun t ht => .inl ht) ⟨hb.evt, ?_, ?_, hb.trg, hb.stq⟩
        · intro y hy; exact hb.arm y (List.mem_of_mem_eraseIdx hy)
        · intro k r lr hk
          rcases List.mem_append.1 hk with hk | hk
          · exact hb.ntf k r lr hk
          · exact hb.arm x (List.mem_of_getElem? hx) k r lr (List.mem_singleton.1 hk).symm
  | fire i =>
    simp only [NodeSys.act] at ha
    split at ha
    · cases ha
    · obtain ⟨sys, hs, rfl⟩ := Option.map_eq_some_iff.1 ha
      simp only [TimerSys.act] at hs
      split at hs
      · cases hs
      · rename_i ev hev
        cases hs
        refine led_frame h rfl rfl rfl (fun t ht => ?_) ⟨hb.evt, hb.arm, ?_, ?_, hb.stq⟩
        · simp only [List.mem_append, Option.mem_toList] at ht
          rcases ht with ht | ht
          · exact .inl ht
          · exact .inr (timer_trigger ht).2
        · intro k r lr hk; exact hb.ntf k r lr (List.mem_of_mem_eraseIdx hk)
        · intro t ht
          simp only [List.mem_append, Option.mem_toList] at ht
          rcases ht with ht | ht
          · exact hb.trg t ht
          · intro h1' _
            have hmem := List.mem_of_getElem? hev
            cases ev with
            | brake k r lr =>
              have := hb.ntf k r lr hmem
              simp only [Timer.trigger] at ht
              split at ht
              · cases ht
              · cases ht; exact this
            | _ =>
              simp only [Timer.trigger] at ht
              first
                | cases ht
                | (split at ht
                   · cases ht
                   · cases ht; simp [timeoutTrigger] at h1')

/-- The conditions of C74. -/
abbrev Ok (addr : Address) (n : NodeSys T) (a : NAct T) : Prop :=
  (InSync n a ∧ RoundSmall n a ∧ StartOk addr n a) ∧ CommitsOk n a

theorem inv_step {addr : Address} {n n' : NodeSys T} {a : NAct T} (h : Inv n)
    (ok : Ok addr n a) (ha : n.act addr a = some n') : Inv n' := by
  have hv := node_inv h.votes ok.1 ha
  obtain ⟨⟨ok1, ok2, ok3⟩, ok4⟩ := ok
  have up : (∀ p e c, a ≠ .start p e c) → a ≠ .crash → n.down = false := by
    intro h1 h2
    cases hd : n.down with
    | false => rfl
    | true =>
      cases a with
      | start p e c => exact absurd rfl (h1 p e c)
      | crash => exact absurd rfl h2
      | _ => simp [NodeSys.act, hd] at ha
  cases a with
  | start p e cut =>
    obtain ⟨hd, hc⟩ := start_act ha
    have hkn := known_start h.sorted ok3
    obtain ⟨l1, l2⟩ := start_led (log := n.log) h.sorted hkn ok4 (start_out e (State.new addr p.initHeight p.interval p.list))
    rcases hc with ⟨h1, h2⟩ | ⟨h1, h2, h3, h4⟩
    · exact ⟨hv, by rw [h2]; exact sorted_cut l1 cut, fun hf => by rw [h1] at hf; cases hf⟩
    · refine ⟨hv, by rw [h3, placesOf_append]; exact l1, fun hf => ?_⟩
      rw [h3, placesOf_append]
      rw [h4] at hf ⊢
      exact l2 hf
  | crash =>
    simp only [NodeSys.act, Option.some.injEq] at ha
    subst ha
    exact ⟨hv, h.sorted, by simp⟩
  | arm x e cut =>
    have hd := up (by simp) (by simp)
    simp only [NodeSys.act, hd, Bool.false_eq_true, if_false] at ha
    split at ha
    · cases ha
    · rename_i i n1 ht
      cases ha
      obtain ⟨l1, l2⟩ := led_arm (h.led hd) (h.votes.live hd) ok1 ok4 ht h.sorted (cut := cut)
      refine ⟨hv, ?_, l1⟩
      have : (n1.took cut (runArm i e ⟨n.st, []⟩)).log = n.log ++ cutTo cut (runArm i e ⟨n.st, []⟩).2.log := by
        rw [← (take_spec ht).2.1]; rfl
      rw [this]
      exact sorted_cut l2 cut
  | _ =>
    have hd := up (by simp) (by simp)
    have hl := led_other (h.led hd) (h.votes.live hd) ok2 ha (by simp) (by simp) (by simp)
    obtain ⟨e1, -⟩ := live_other (h.votes.live hd) ok2 ha (by simp) (by simp) (by simp)
    exact ⟨hv, by rw [e1]; exact h.sorted, fun _ => by rw [e1]; exact hl⟩

theorem inv_new (addr : Address) : Inv (NodeSys.new addr : NodeSys T) :=
  ⟨nodeInv_new addr, by simp [NodeSys.new, NodeSys.fresh, placesOf, savedOf, Sorted], by simp [NodeSys.new, NodeSys.fresh]⟩

end Fwd
end Overlord
