import Verif.Spec.Chain
import Verif.Proofs.GoodEnd

/-! A node that goes through several heights. -/

set_option linter.unusedSimpArgs false
set_option linter.unusedVariables false
set_option linter.unusedSectionVars false

namespace Overlord.Chain
open M Spec Good

variable {T : Type}

/-! ### The voting state machine after the commit -/

theorem smr_commit_idle {g : GoodRound T} {s : Smr} (hH : s.height = g.height) (hR : s.round = g.round) (hs : s.step = .commit) {t : SMRTrigger}
    (ht : t = tP g ∨ ∃ ty, t = tQ g ty) : s.onTrigger t = s.idle := by
  rcases ht with rfl | ⟨ty, rfl⟩
  · simp [Smr.onTrigger, tP, stTrigger, Smr.handleProposal, hH, hR, hs, Step.toNat]
  · cases ty <;>
      simp [Smr.onTrigger, tQ, stTrigger, VoteType.toTrigger, Smr.handlePrevote, Smr.handlePrecommit, hH, hR, hs, Step.toNat]

/-- A commit is the last event, and the voting state machine waits. -/
def Last (n : NodeSys T) : Prop :=
  ∀ pre x post, n.stQ = pre ++ .commit x :: post → post = [] ∧ n.sys.smr.step = .commit

theorem last_of_none {n : NodeSys T} (h : ∀ ev ∈ n.stQ, ¬ IsCommit ev) : Last n := by
  intro pre x post hh
  exact absurd trivial (h (.commit x) (by rw [hh]; simp))

theorem Last.keep {n n' : NodeSys T} (h : Last n) (h1 : n'.stQ = n.stQ) (h2 : n'.sys.smr = n.sys.smr) : Last n' := by
  unfold Last
  rw [h1, h2]; exact h

theorem Last.pop {n n' : NodeSys T} {ev : SMREvent} (h : Last n) (h1 : n.stQ = ev :: n'.stQ) (h2 : n'.sys.smr = n.sys.smr) : Last n' := by
  intro pre x post hh
  rw [h2]
  exact h (ev :: pre) x post (by rw [h1, hh]; rfl)

variable [ContentCodec T] [DecidableEq T]

theorem Last.smr {g : GoodRound T} (hg : g.Ok) {P : Option (SignedProposal T)} {q : VoteType → Prop} {a : Address} {D : OverlordMsg T → Prop}
    {L : List (Effect T)} {n n' : NodeSys T} (hl : Last n) (h : NodeIn g P q a D L n) (hx : n.act a .smr = some n') : Last n' := by
  have hc := h.core
  unfold NodeSys.act at hx
  rw [hc.up] at hx
  simp only [Bool.false_eq_true, if_false] at hx
  cases htq : n.sys.trigQ with
  | nil => rw [htq] at hx; cases hx
  | cons t ts =>
    have hto := hc.trigs t (by rw [htq]; simp)
    obtain ⟨h1, h2, h3, h4⟩ := smr_out hg hc hto
    have hid := smr_commit_idle (t := t) hc.smrH hc.smrR
    have htt : t = tP g ∨ ∃ ty, t = tQ g ty := hto.2.2.imp id fun ⟨ty, h, _⟩ => ⟨ty, h⟩
    rw [htq] at hx
    simp only [TimerSys.act, htq, h1, Option.some.injEq] at hx
    subst hx
    by_cases hs : n.sys.smr.step = .commit
    · have := hid hs htt
      refine hl.keep ?_ ?_
      · show n.stQ ++ _ = _
        rw [this]; simp [Smr.idle]
      · show (n.sys.smr.onTrigger t).next = _
        rw [this]; rfl
    · have hno : ∀ ev ∈ n.stQ, ¬ IsCommit ev := by
        intro ev hev hcm
        cases ev with
        | commit x =>
          obtain ⟨pre, post, hp⟩ := List.append_of_mem hev
          exact hs (hl pre x post hp).2
        | _ => exact hcm
      intro pre x post hh
      have hh : n.stQ ++ (n.sys.smr.onTrigger t).outs.filterMap Out.toState = pre ++ .commit x :: post := hh
      rcases h4 with ⟨_, _, h5, lr, h6, h7⟩ | ⟨_, h8, _, h5, lr, h6, h7⟩ | ⟨_, h8, h5, h7⟩ | ⟨h6, h5, h7, _⟩
      · exfalso
        have hm : SMREvent.commit x ∈ n.stQ ++ (n.sys.smr.onTrigger t).outs.filterMap Out.toState := by rw [hh]; simp
        rw [h7] at hm
        rcases List.mem_append.1 hm with hm | hm
        · exact hno _ hm trivial
        · simp at hm
      · exfalso
        have hm : SMREvent.commit x ∈ n.stQ ++ (n.sys.smr.onTrigger t).outs.filterMap Out.toState := by rw [hh]; simp
        rw [h7] at hm
        rcases List.mem_append.1 hm with hm | hm
        · exact hno _ hm trivial
        · simp at hm
      · refine ⟨?_, h5⟩
        rw [h7] at hh
        rcases split_last hh with ⟨_, _, h9⟩ | ⟨l3, h9⟩
        · exact h9
        · exact absurd trivial (hno (.commit x) (by rw [h9]; simp))
      · exfalso
        have hm : SMREvent.commit x ∈ n.stQ ++ (n.sys.smr.onTrigger t).outs.filterMap Out.toState := by rw [hh]; simp
        rw [h7, List.append_nil] at hm
        exact hno _ hm trivial

/-! ### What an input sends, and what it commits -/

/-- What a node sends is about its height; only the order to commit changes the height. -/
theorem sends_here {e : Env T} {i : Input T} {s : State T} (h1 : i ≠ .start) (h2 : ∀ st, i ≠ .verified (.richStatus st)) :
    (∀ m, .broadcast m ∈ effects e i s → m.getHeight? = some s.height) ∧
    (∀ d m, .transmit d m ∈ effects e i s → m.getHeight? = some s.height) := by
  have := arm_inv (e := e) (i := i) (s := s) (P := fun w => ((∀ x, i ≠ .event (.commit x)) → w.st.height = s.height) ∧
    (∀ m, .broadcast m ∈ w.log → m.getHeight? = some s.height) ∧
    (∀ d m, .transmit d m ∈ w.log → m.getHeight? = some s.height)) ⟨fun _ => rfl, by simp, by simp⟩ ?_
  · exact ⟨this.2.1, this.2.2⟩
  rintro ⟨s1, l⟩ eff s' ⟨h3, h4, h5⟩ hm
  dsimp only at *
  suffices ((∀ x, i ≠ .event (.commit x)) → s'.height = s.height) ∧ (∀ m, .broadcast m ∈ eff → m.getHeight? = some s.height) ∧
      (∀ d m, .transmit d m ∈ eff → m.getHeight? = some s.height) by
    refine ⟨this.1, fun m hm => ?_, fun d m hm => ?_⟩
    · rcases List.mem_append.1 hm with hm | hm
      exacts [h4 m hm, this.2.1 m hm]
    · rcases List.mem_append.1 hm with hm | hm
      exacts [h5 d m hm, this.2.2 d m hm]
  have hmv : ∀ st, (i = .verified (.richStatus st) ∨ i = .start ∨ ∃ h, i = .event (.commit h)) → (∀ x, i ≠ .event (.commit x)) → False := by
    rintro st (h | h | ⟨x, h⟩) hc
    exacts [h2 _ h, h1 h, hc _ h]
  have hv : ∀ ty x lr, VoteInput i ty x lr → ∀ y, i ≠ .event (.commit y) := by
    rintro ty x lr ⟨h, r, rfl⟩ y
    cases ty <;> simp
  have hn : ∀ r lr lp f, NewRoundInput i r lr lp f → ∀ y, i ≠ .event (.commit y) := by
    rintro r lr lp f ⟨h, ni, nc, rfl⟩ y
    simp
  cases hm with
  | genQc ty hash vs sig hi =>
    refine ⟨h3, fun m hm => ?_, by simp⟩
    simp only [List.mem_singleton, Effect.broadcast.injEq] at hm
    subst hm
    have : ∀ y, i ≠ .event (.commit y) := by
      rcases hi with ⟨_, _, hi, _⟩ | ⟨sv, hi, _⟩
      · exact hv _ _ _ hi
      · subst hi; simp
    simp [OverlordMsg.getHeight?, mkQc, h3 this]
  | propose sp r lr lp f hi hr hl hh =>
    refine ⟨h3, fun m hm => ?_, by simp⟩
    simp only [List.mem_cons, Effect.broadcast.injEq, reduceCtorEq, List.not_mem_nil, or_false] at hm
    subst hm
    simp [OverlordMsg.getHeight?, hh, h3 (hn _ _ _ _ hi)]
  | castVote ty hash lr lock sv hsv hi hl hv' =>
    have : sv.vote.height = s1.height := by rw [hv']
    refine ⟨h3, fun m hm => ?_, fun d m hm => ?_⟩
    · simp only [List.mem_cons, reduceCtorEq, List.not_mem_nil, or_false, false_or] at hm
      split at hm <;> cases hm
    · simp only [List.mem_cons, reduceCtorEq, List.not_mem_nil, or_false, false_or] at hm
      split at hm
      · cases hm
      · cases hm
        simp [OverlordMsg.getHeight?, this, h3 (hv _ _ _ hi)]
  | castChoke sc lr lock hsv hi hl hc =>
    have : sc.choke.height = s1.height := by rw [hc]
    refine ⟨h3, fun m hm => ?_, by simp⟩
    simp only [List.mem_cons, Effect.broadcast.injEq, reduceCtorEq, List.not_mem_nil, or_false, false_or] at hm
    subst hm
    have hc' : ∀ y, i ≠ .event (.commit y) := by
      rcases hi with ⟨h, r, hi, _⟩ | hi
      · subst hi; simp
      · exact absurd hi h1
    simp [OverlordMsg.getHeight?, this, h3 hc']
  | move st hi hh => exact ⟨fun hc => (hmv st hi hc).elim, by simp, by simp⟩
  | moveLost st hsv hi hh => exact ⟨fun hc => (hmv st hi hc).elim, by simp, by simp⟩
  | adopt st hsv hi hh => exact ⟨fun hc => (hmv st hi hc).elim, by simp, by simp⟩
  | enterRound r lr lp f hi =>
    refine ⟨h3, ?_, ?_⟩ <;> split <;> simp
  | restorePos w b hi => exact absurd hi h1
  | _ => exact ⟨h3, by simp, by simp⟩

/-- Only an order to commit commits. -/
theorem no_commit {e : Env T} {i : Input T} {s : State T} (h1 : i ≠ .start) (h2 : ∀ x, i ≠ .event (.commit x)) :
    ∀ h c r, .commitCall h c r ∉ effects e i s := by
  refine arm_inv (e := e) (i := i) (s := s) (P := fun w => ∀ h c r, .commitCall h c r ∉ w.log) (by simp) ?_
  rintro ⟨s1, l⟩ eff s' h3 hm h c r hx
  dsimp only at *
  rcases List.mem_append.1 hx with hx | hx
  · exact h3 h c r hx
  · cases hm with
    | commit hash content qc hsv hi =>
      rcases hi with hi | hi
      exacts [h2 _ hi, h1 hi]
    | castVote => 
      simp only [List.mem_cons, reduceCtorEq, List.not_mem_nil, or_false, false_or] at hx
      split at hx <;> cases hx
    | enterRound => split at hx <;> simp at hx
    | _ => simp at hx

theorem blocksOf_nil {l : List (Effect T)} (h : ∀ h c r, .commitCall h c r ∉ l) : blocksOf l = [] := by
  unfold blocksOf
  rw [List.filterMap_eq_nil_iff]
  intro x hx
  cases x with
  | commitCall h' c r => exact absurd hx (h h' c r)
  | _ => rfl

omit [ContentCodec T] [DecidableEq T] in
theorem blocksOf_append (l l' : List (Effect T)) : blocksOf (l ++ l') = blocksOf l ++ blocksOf l' := by
  unfold blocksOf; rw [List.filterMap_append]

/-- Block checks are remembered only from results of checks. -/
theorem full_same {e : Env T} {i : Input T} {s : State T} {x : Hash} (h : ∀ r, i = .resp r → r.height = s.height → r.blockHash ≠ x)
    (h1 : i ≠ .start) : (next e i s).isFullTransaction.get? x = s.isFullTransaction.get? x := by
  have := arm_inv (e := e) (i := i) (s := s) (P := fun w => ((∃ r, i = .resp r) → w.st.height = s.height) ∧
    w.st.isFullTransaction.get? x = s.isFullTransaction.get? x) ⟨fun _ => rfl, rfl⟩ ?_
  · exact this.2
  rintro ⟨s1, l⟩ eff s' ⟨h3, h4⟩ hm
  dsimp only at *
  have hmv : ∀ st, (i = .verified (.richStatus st) ∨ i = .start ∨ ∃ h, i = .event (.commit h)) → (∃ r, i = .resp r) → False := by
    rintro st (h | h | ⟨x, h⟩) ⟨r, h'⟩ <;> rw [h] at h' <;> cases h'
  cases hm with
  | checked r hi hh =>
    refine ⟨h3, ?_⟩
    rw [AMap.get?_insert, if_neg (h r hi (by rw [hh]; exact h3 ⟨r, hi⟩))]
    exact h4
  | move st hi hh => exact ⟨fun hc => (hmv st hi hc).elim, h4⟩
  | moveLost st hsv hi hh => exact ⟨fun hc => (hmv st hi hc).elim, h4⟩
  | adopt st hsv hi hh => exact ⟨fun hc => (hmv st hi hc).elim, h4⟩
  | restorePos w b hi => exact absurd hi h1
  | _ => exact ⟨h3, h4⟩

end Overlord.Chain
