import Verif.Proofs.NodeRestart

/-! Which messages reach the queue of verified messages. -/

set_option linter.unusedSimpArgs false
set_option linter.unusedVariables false
set_option linter.unusedSectionVars false
set_option linter.unnecessarySeqFocus false

namespace Overlord
open M Spec

variable {T : Type} [ContentCodec T] [DecidableEq T]

/-- What one input does to the list and to the running verifications. -/
structure AuthOut (s : State T) (w : World T) : Prop where
  up : s.height ≤ w.st.height
  same : w.st.height = s.height → w.st.authority = s.authority
  spawn : ∀ m a, .spawnVerify m a ∈ w.log → m.getHeight? = some w.st.height ∧ a = w.st.authority
  fwd : ∀ m, .toVerified m ∈ w.log → False

/-- Inputs that can make the node move. -/
def MoveInput (i : Input T) : Prop :=
  i = .start ∨ (∃ m, i = .raw m) ∨ (∃ st, i = .verified (.richStatus st)) ∨ ∃ h, i = .event (.commit h)

theorem arm_auth_quiet {e : Env T} {i : Input T} {s : State T} (hi : ¬ MoveInput i) :
    AuthOut s (runArm i e ⟨s, []⟩).2 := by
  simp only [MoveInput, not_or, not_exists] at hi
  obtain ⟨h1, h2, h3, h4⟩ := hi
  have := arm_inv (e := e) (i := i) (s := s) (P := fun w => w.st.height = s.height ∧ w.st.authority = s.authority ∧
    ∀ x ∈ w.log, (∀ m a, x ≠ .spawnVerify m a) ∧ ∀ m, x ≠ .toVerified m) ⟨rfl, rfl, by simp⟩ (by
      intro w eff s' ⟨g1, g2, g3⟩ hm
      have key : s'.height = w.st.height ∧ s'.authority = w.st.authority ∧
          ∀ x ∈ eff, (∀ m a, x ≠ .spawnVerify m a) ∧ ∀ m, x ≠ .toVerified m := by
        cases hm with
        | enterRound => split <;> simp
        | castVote => split <;> simp
        | commit hash content qc hsv hi => rcases hi with hi | hi; exact absurd hi (h4 _); exact absurd hi h1
        | move status hi => rcases hi with hi | hi | ⟨h, hi⟩; exact absurd hi (h3 _); exact absurd hi h1; exact absurd hi (h4 _)
        | moveLost status hsv hi => rcases hi with hi | hi | ⟨h, hi⟩; exact absurd hi (h3 _); exact absurd hi h1; exact absurd hi (h4 _)
        | adopt status hsv hi => rcases hi with hi | hi | ⟨h, hi⟩; exact absurd hi (h3 _); exact absurd hi h1; exact absurd hi (h4 _)
        | restorePos w b hi => exact absurd hi h1
        | forward m hi => exact absurd hi (h2 _)
        | verify m hi => exact absurd hi (h2 _)
        | _ => simp
      refine ⟨key.1.trans g1, key.2.1.trans g2, fun x hx => ?_⟩
      rcases List.mem_append.1 hx with hx | hx
      · exact g3 x hx
      · exact key.2.2 x hx)
  obtain ⟨g1, g2, g3⟩ := this
  exact ⟨by rw [g1], fun _ => g2, fun m a hx => absurd rfl ((g3 _ hx).1 m a), fun m hx => absurd rfl ((g3 _ hx).2 m)⟩

theorem moves_auth {e : Env T} {s : State T} {status : Status} {w : World T} (hf : Filed s) (m : Moves e s status w) :
    AuthOut s w := by
  cases m with
  | stay => exact ⟨Nat.le_refl _, fun _ => rfl, by simp, by simp⟩
  | away hh => exact ⟨Nat.le_of_lt hh, fun h => absurd (show status.height = s.height from h) (by omega), by simp, by simp⟩
  | lost hh => exact ⟨Nat.le_of_lt hh, fun h => absurd (show status.height = s.height from h) (by omega), by simp, by simp⟩
  | adopt hh hp hs =>
    refine ⟨Nat.le_of_lt hh, fun h => absurd (show status.height = s.height from h) (by omega), ?_, by simp⟩
    intro m a hx
    simp only [List.cons_append, List.mem_cons, List.mem_append, List.mem_map, reduceCtorEq, false_or, or_false, List.not_mem_nil] at hx
    obtain ⟨m', hm', he⟩ := hx
    simp only [Effect.spawnVerify.injEq] at he
    obtain ⟨rfl, rfl⟩ := he
    exact ⟨(hf.recheck hm').1, rfl⟩

theorem commit_auth {e : Env T} {s : State T} {hash : Hash} {w : World T} (hf : Filed s) (ha : CommitsAnswered e)
    (o : CommitOut e s hash w) : AuthOut s w := by
  cases o with
  | none => exact ⟨Nat.le_refl _, fun _ => rfl, by simp, by simp⟩
  | lost => exact ⟨Nat.le_refl _, fun _ => rfl, by simp, by simp⟩
  | failed => exact ⟨Nat.le_refl _, fun _ => rfl, by simp, by simp⟩
  | stuck content qc st x hb hq hs hc hx =>
    obtain ⟨_, l, hl⟩ := ha _ _ _ hc
    rw [hl] at hx; cases hx
  | done content qc st w hb hq hs hc hm =>
    obtain ⟨hlt, _⟩ := ha _ _ _ hc
    have g := moves_auth (s := { s with authority := Authority.update st.authorityList }) ⟨hf.props, hf.votes⟩ hm
    have hne : w.st.height = st.height := by
      cases hm with
      | stay hh => exact absurd (show st.height ≤ s.height from hh) (by omega)
      | _ => rfl
    refine ⟨g.up, fun h => absurd (hne.symm.trans h) (by omega), ?_, ?_⟩
    · intro m a hx; simp at hx; exact g.spawn m a hx
    · intro m hx; simp at hx; exact g.fwd m hx

theorem brake_spawn {e : Env T} {s : State T} :
    ∀ m a, .spawnVerify m a ∈ (runArm .start e ⟨s, []⟩).2.log → ∃ w, .save w ∈ obs (runArm .start e ⟨s, []⟩).2.log ∧ w.step = .propose := by
  refine arm_inv (e := e) (i := .start) (s := s) (P := fun w => ∀ m a, .spawnVerify m a ∈ w.log → ∃ r, .save r ∈ obs w.log ∧ r.step = .propose)
    (by simp) ?_
  intro w eff s' ih hm m a hx
  rw [obs_append]
  have hx' := List.mem_append.1 hx
  clear hx
  rcases hx' with hx | hx
  · obtain ⟨r, h1, h2⟩ := ih m a hx
    exact ⟨r, by simp [h1], h2⟩
  · cases hm with
    | adopt status hsv hi hh hp => exact ⟨_, List.mem_append_right _ (List.mem_cons_self ..), rfl⟩
    | verify m hi => cases hi
    | enterRound => split at hx <;> simp at hx
    | castVote => split at hx <;> simp at hx
    | _ => simp at hx

theorem start_spawn {e : Env T} {s : State T} (hf : Filed s) (ha : CommitsAnswered e) :
    (∀ m a, .spawnVerify m a ∈ (runArm .start e ⟨s, []⟩).2.log →
      m.getHeight? = some (runArm .start e ⟨s, []⟩).2.st.height ∧ a = (runArm .start e ⟨s, []⟩).2.st.authority) ∧
    ∀ m, .toVerified m ∉ (runArm .start e ⟨s, []⟩).2.log := by
  have hb := brake_spawn (e := e) (s := s)
  refine ⟨?_, ?_⟩
  · have o := start_out e s
    generalize (runArm .start e ⟨s, []⟩).2 = w at *
    cases o with
    | idle hw => subst hw; simp
    | fresh _ _ _ hw => subst hw; simp
    | noLeader _ _ _ _ _ _ _ hw => subst hw; simp
    | noLock _ _ _ _ _ _ _ _ _ hw => subst hw; simp
    | resume _ _ _ _ _ _ _ _ _ hw => subst hw; simp
    | commit b rec p lock hp hl hd hx hst hk o =>
      refine (commit_auth ?_ ha o).spawn
      unfold State.restored
      split
      · exact ⟨hf.props, hf.votes⟩
      · exact ⟨hf.props, hf.votes.setQc trivial⟩
    | brake b rec p hp hl hd hx hst w1 o hw =>
      intro m a hm
      exfalso
      obtain ⟨r, h1, h2⟩ := hb m a hm
      have h1 : .save r ∈ obs w1.log := by
        rcases hw with rfl | rfl
        · exact h1
        · rw [obs_append] at h1
          rcases List.mem_append.1 h1 with h | h
          · exact h
          · simp [obs, obsOf, walTrig, stTrigger] at h
      rcases o.out with h | ⟨lock, _, h⟩
      · rw [h] at h1; cases h1
      · rw [h] at h1; simp at h1; rw [h1] at h2; cases h2
  · intro m hx
    obtain ⟨s1, eff, s2, -, hm, hx⟩ := arm_effect (P := fun _ => True) trivial (fun _ _ _ _ _ => trivial) hx
    cases hm with
    | forward m hi => cases hi
    | enterRound => split at hx <;> simp at hx
    | castVote => split at hx <;> simp at hx
    | _ => simp at hx

/-- Arms of the loop other than the arrival of a message. -/
theorem arm_auth {e : Env T} {i : Input T} {s : State T} (hf : Filed s) (ha : CommitsAnswered e) (hi : i ≠ .start)
    (hr : ∀ m, i ≠ .raw m) : AuthOut s (runArm i e ⟨s, []⟩).2 := by
  by_cases hm : MoveInput i
  · rcases hm with h | ⟨m, h⟩ | ⟨st, rfl⟩ | ⟨h, rfl⟩
    · exact absurd h hi
    · exact absurd h (hr m)
    · exact moves_auth hf (status_moves e s st)
    · by_cases h' : s.consensusPower = false ∨ s.stopped = true
      · rw [event_idle h']; exact ⟨Nat.le_refl _, fun _ => rfl, by simp, by simp⟩
      · simp only [not_or, Bool.not_eq_false, Bool.not_eq_true] at h'
        have o := event_out e s (.commit h) h'.1 h'.2
        generalize (runArm (.event (.commit h)) e ⟨s, []⟩).2 = w at *
        cases o with
        | commit _ o => exact commit_auth hf ha o
  · exact arm_auth_quiet hm

/-- The arrival of a message. -/
theorem raw_auth {e : Env T} {m : OverlordMsg T} {s : State T} :
    (runArm (.raw m) e ⟨s, []⟩).2.st = s ∧
    ((runArm (.raw m) e ⟨s, []⟩).2.log = [] ∨
      ((runArm (.raw m) e ⟨s, []⟩).2.log = [.toVerified m] ∧ (m.isRichStatus = true ∨ ∃ k, m.getHeight? = some k ∧ s.height < k)) ∨
      ((runArm (.raw m) e ⟨s, []⟩).2.log = [.spawnVerify m s.authority] ∧ m.getHeight? = some s.height)) := by
  have hrun : runArm (.raw m) e ⟨s, []⟩ =
      if m.isRichStatus then (.ok true, ⟨s, [.toVerified m]⟩)
      else match m.getHeight? with
        | none => (.error .panic, ⟨s, []⟩)
        | some h => if s.height < h then (.ok true, ⟨s, [.toVerified m]⟩)
          else if s.height = h then (.ok true, ⟨s, [.spawnVerify m s.authority]⟩) else (.ok true, ⟨s, []⟩) := by
    unfold runArm
    dsimp only
    split
    · rfl
    · cases hg : m.getHeight? with
      | none => rfl
      | some h =>
        dsimp only
        by_cases h1 : s.height < h
        · rw [if_pos h1]
          show (if s.height < h then _ else _ : M T Bool) e ⟨s, []⟩ = _
          rw [if_pos h1]; rfl
        · rw [if_neg h1]
          show (if s.height < h then _ else if s.height = h then _ else _ : M T Bool) e ⟨s, []⟩ = _
          rw [if_neg h1]
          by_cases h2 : s.height = h
          · rw [if_pos h2, if_pos h2]; rfl
          · rw [if_neg h2, if_neg h2]; rfl
  rw [hrun]
  split
  · rename_i h; exact ⟨rfl, .inr (.inl ⟨rfl, .inl h⟩)⟩
  · split
    · exact ⟨rfl, .inl rfl⟩
    · rename_i h hh
      split
      · rename_i hlt; exact ⟨rfl, .inr (.inl ⟨rfl, .inr ⟨h, hh, hlt⟩⟩)⟩
      · split
        · rename_i he; exact ⟨rfl, .inr (.inr ⟨rfl, by rw [hh, he]⟩)⟩
        · exact ⟨rfl, .inl rfl⟩

end Overlord
