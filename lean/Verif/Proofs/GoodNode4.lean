import Verif.Proofs.GoodNode3

/-! Any step of a live node in a good round. -/

set_option linter.unusedSimpArgs false
set_option linter.unusedVariables false
set_option linter.unusedSectionVars false

namespace Overlord.Good
open M Spec

variable {T : Type} {g : GoodRound T} {P P' : Option (SignedProposal T)} {q q' : VoteType → Prop} {a : Address} {D : OverlordMsg T → Prop}
  {L L' : List (Effect T)}

theorem Sends.quiet {eff : List (Effect T)} (h1 : ∀ m, .broadcast m ∉ eff) (h2 : ∀ d m, .transmit d m ∉ eff) : Sends g P a eff :=
  ⟨fun m hm => absurd hm (h1 m), fun d m hm => absurd hm (h2 d m)⟩

theorem NodeIn.logged {n : NodeSys T} (h : NodeIn g P q a D L n) {eff : List (Effect T)} (h1 : ∀ m, .broadcast m ∉ eff) (h2 : ∀ d m, .transmit d m ∉ eff) :
    NodeIn g P q a D (L ++ eff) n := by
  have hc := h.core
  refine ⟨{ hc with i2 := ?_, i3 := ?_, i5 := ?_, i6 := ?_, own := ?_, sends := hc.sends.app (.quiet h1 h2) }, h.prog, h.shape⟩
  · exact fun h => (hc.i2 h).imp id (Or.imp (fun h => h.mono (.refl _) _) id)
  · exact fun h => (hc.i3 h).imp id (Or.imp (fun h => h.mono (.refl _) _) id)
  · exact fun h h' => (hc.i5 h h').imp id (Or.imp id (fun h => h.app _))
  · exact fun h => ⟨(hc.i6 h).1, (hc.i6 h).2.imp id (fun h => h.app _)⟩
  · intro ty qc hm
    rcases List.mem_append.1 hm with hm | hm
    · exact hc.own ty qc hm
    · exact absurd hm (h1 _)

section
variable [ContentCodec T] [DecidableEq T]

/-- A node above the height sends nothing about it. -/
theorem high_run {e : Env T} {i : Input T} {s : State T} {k : Nat} (hk : k < s.height) (hi : i ≠ .start) :
    k < (runArm i e ⟨s, []⟩).2.st.height ∧
    (∀ m, .broadcast m ∈ (runArm i e ⟨s, []⟩).2.log → m.getHeight? ≠ some k) ∧
    (∀ d m, .transmit d m ∈ (runArm i e ⟨s, []⟩).2.log → m.getHeight? ≠ some k) := by
  refine arm_inv (P := fun w => k < w.st.height ∧ (∀ m, .broadcast m ∈ w.log → m.getHeight? ≠ some k) ∧
    (∀ d m, .transmit d m ∈ w.log → m.getHeight? ≠ some k)) ⟨hk, by simp, by simp⟩ ?_
  rintro ⟨s1, l⟩ eff s' ⟨h1, h2, h3⟩ hm
  dsimp only at *
  suffices k < s'.height ∧ (∀ m, .broadcast m ∈ eff → m.getHeight? ≠ some k) ∧ (∀ d m, .transmit d m ∈ eff → m.getHeight? ≠ some k) by
    refine ⟨this.1, fun m hm => ?_, fun d m hm => ?_⟩
    · rcases List.mem_append.1 hm with hm | hm
      exacts [h2 m hm, this.2.1 m hm]
    · rcases List.mem_append.1 hm with hm | hm
      exacts [h3 d m hm, this.2.2 d m hm]
  cases hm with
  | genQc ty hash vs sig => 
    refine ⟨h1, fun m hm => ?_, by simp⟩
    simp only [List.mem_singleton, Effect.broadcast.injEq] at hm
    subst hm
    simp [OverlordMsg.getHeight?, mkQc]; omega
  | propose sp r lr lp f hi hr hl hh =>
    refine ⟨h1, fun m hm => ?_, by simp⟩
    simp only [List.mem_cons, Effect.broadcast.injEq, reduceCtorEq, List.not_mem_nil, or_false] at hm
    subst hm
    simp [OverlordMsg.getHeight?]; omega
  | castVote ty hash lr lock sv hsv hi hl hv =>
    have : sv.vote.height = s1.height := by rw [hv]
    refine ⟨h1, fun m hm => ?_, fun d m hm => ?_⟩
    · simp only [List.mem_cons, reduceCtorEq, List.not_mem_nil, or_false, false_or] at hm
      split at hm <;> cases hm
    · simp only [List.mem_cons, reduceCtorEq, List.not_mem_nil, or_false, false_or] at hm
      split at hm
      · cases hm
      · cases hm
        simp [OverlordMsg.getHeight?]; omega
  | castChoke sc lr lock hsv hi hl hc =>
    have : sc.choke.height = s1.height := by rw [hc]
    refine ⟨h1, fun m hm => ?_, by simp⟩
    simp only [List.mem_cons, Effect.broadcast.injEq, reduceCtorEq, List.not_mem_nil, or_false, false_or] at hm
    subst hm
    simp [OverlordMsg.getHeight?]; omega
  | move st hi hh => exact ⟨Nat.lt_trans h1 hh, by simp, by simp⟩
  | moveLost st hsv hi hh => exact ⟨Nat.lt_trans h1 hh, by simp, by simp⟩
  | adopt st hsv hi hh => exact ⟨Nat.lt_trans h1 hh, by simp, by simp⟩
  | enterRound r lr lp f hi =>
    refine ⟨h1, ?_, ?_⟩ <;> split <;> simp
  | restorePos w b hi => exact absurd hi ‹_›
  | _ => exact ⟨h1, by simp, by simp⟩

/-- A node that has left the height. -/
theorem NodeOut.act {n n' : NodeSys T} {x : NAct T} (h : NodeOut g P q a L n) (hs : ∀ p e cut, x ≠ .start p e cut)
    (hc : ∀ y e cut, x = .arm y e cut → cut = none)
    (hx : n.act a x = some n') : ∃ eff, n'.log = n.log ++ eff ∧ NodeOut g P q a (L ++ eff) n' := by
  have quiet : n'.log = n.log → n'.st = n.st → ∃ eff, n'.log = n.log ++ eff ∧ NodeOut g P q a (L ++ eff) n' := by
    intro h1 h2
    refine ⟨[], by simp [h1], ?_⟩
    rw [List.append_nil]
    exact { h with height := by rw [h2]; exact h.height }
  cases x with
  | start p e cut => exact absurd rfl (hs p e cut)
  | crash => cases hx; exact quiet rfl rfl
  | arm y e cut =>
    have := hc y e cut rfl
    subst this
    unfold NodeSys.act at hx
    dsimp only at hx
    split at hx
    · cases hx
    · split at hx
      · cases hx
      · rename_i i n1 ht
        cases hx
        have hi : i ≠ .start ∧ n1.log = n.log := by
          unfold NodeSys.take at ht
          cases y with
          | raw m => cases ht; exact ⟨by simp, rfl⟩
          | event => dsimp only at ht; split at ht <;> cases ht; exact ⟨by simp, rfl⟩
          | resp => dsimp only at ht; split at ht <;> cases ht; exact ⟨by simp, rfl⟩
          | verified => dsimp only at ht; split at ht <;> cases ht; exact ⟨by simp, rfl⟩
        obtain ⟨h1, h2, h3⟩ := high_run (e := e) h.height hi.1
        refine ⟨(runArm i e ⟨n.st, []⟩).2.log, ?_, h1, h.comm.app _, h.has, h.prop, h.sends.app ⟨fun m hm hh => absurd hh (h2 m hm), fun d m hm hh => absurd hh (h3 d m hm)⟩⟩
        show n1.log ++ _ = _
        rw [hi.2]; rfl
  | verifyDone c i =>
    unfold NodeSys.act at hx
    dsimp only at hx
    split at hx
    · cases hx
    · split at hx <;> cases hx
      exact quiet rfl rfl
  | checkDone i ok =>
    unfold NodeSys.act at hx
    dsimp only at hx
    split at hx
    · cases hx
    · split at hx <;> cases hx
      exact quiet rfl rfl
  | smr =>
    unfold NodeSys.act at hx
    dsimp only at hx
    split at hx
    · cases hx
    · split at hx
      · cases hx
      · split at hx <;> cases hx
        exact quiet rfl rfl
  | set =>
    unfold NodeSys.act at hx
    dsimp only at hx
    split at hx
    · cases hx
    · obtain ⟨sys, h1, rfl⟩ := Option.map_eq_some_iff.1 hx
      exact quiet rfl rfl
  | expire i =>
    unfold NodeSys.act at hx
    dsimp only at hx
    split at hx
    · cases hx
    · obtain ⟨sys, h1, rfl⟩ := Option.map_eq_some_iff.1 hx
      exact quiet rfl rfl
  | fire i =>
    unfold NodeSys.act at hx
    dsimp only at hx
    split at hx
    · cases hx
    · obtain ⟨sys, h1, rfl⟩ := Option.map_eq_some_iff.1 hx
      exact quiet rfl rfl

end

end Overlord.Good
