import Verif.Proofs.Seeds3

/-! Two runs with different hash seeds: whole runs. -/

set_option linter.unusedSimpArgs false
set_option linter.unusedVariables false
set_option linter.unusedSectionVars false
set_option linter.unnecessarySeqFocus false

namespace Overlord
namespace Seed
open M Spec

variable {T : Type} [ContentCodec T] [DecidableEq T]

/-- Inputs that can change the list of validators or the height. -/
def Mover (i : Input T) : Prop := i = .start ∨ (∃ st, i = .verified (.richStatus st)) ∨ ∃ h, i = .event (.commit h)

theorem Pools.setQc {s : State T} (h : Pools s) (qc : AggregatedVote) : Pools { s with votes := s.votes.setQc qc } := by
  obtain ⟨l, hl, he, hm, hp⟩ := h
  refine ⟨l, hl, he, hm, fun r ty => ?_⟩
  show PoolOk _ _ _ _ (poolD (s.votes.setQc qc) s.height r ty)
  rw [poolD_setQc]
  exact hp r ty

/-- Pools depend on little. -/
theorem Pools.congr {s t : State T} (h : Pools s) (h1 : t.authority = s.authority) (h2 : t.address = s.address) (h3 : t.height = s.height)
    (h4 : t.votes = s.votes) : Pools t := by
  obtain ⟨l, hl, he, hm, hp⟩ := h
  exact ⟨l, hl, h1.trans he, h2 ▸ hm, by rw [h3, h4]; exact hp⟩

theorem Fit.congr {s t : State T} (h : Fit s) (h0 : t.consensusPower = s.consensusPower) (h1 : t.authority = s.authority) (h2 : t.address = s.address)
    (h3 : t.height = s.height) (h4 : t.votes = s.votes) : Fit t := fun hp => (h (h0 ▸ hp)).congr h1 h2 h3 h4

theorem fit_quiet {e : Env T} {i : Input T} {s : State T} (hi : ¬ Mover i) (h : Fit s) : Fit (next e i s) := by
  simp only [Mover, not_or, not_exists] at hi
  obtain ⟨n1, n2, n3⟩ := hi
  refine arm_state_inv (P := Fit) h ?_
  intro s eff s' h hm
  cases hm with
  | recvQc qc => exact fun hp => (h hp).setQc _
  | genQc => exact fun hp => (h hp).setQc _
  | recvVote sv hi hf ha => exact fun hp => (h hp).insertVote ha
  | castVote ty hash lr lock sv hsv hi hl hv ha hs =>
    intro hp
    have h := h hp
    cases hl : s.isLeader with
    | false => simp only [Bool.false_eq_true, if_false]; exact h.congr rfl rfl rfl rfl
    | true =>
      simp only [if_true]
      have := h.ownVote ha
      rw [hv] at this
      exact this
  | commit hash content qc hsv hi => rcases hi with hi | hi; exact absurd hi (n3 _); exact absurd hi n1
  | move status hi => rcases hi with hi | hi | ⟨h, hi⟩; exact absurd hi (n2 _); exact absurd hi n1; exact absurd hi (n3 _)
  | moveLost status hsv hi => rcases hi with hi | hi | ⟨h, hi⟩; exact absurd hi (n2 _); exact absurd hi n1; exact absurd hi (n3 _)
  | adopt status hsv hi => rcases hi with hi | hi | ⟨h, hi⟩; exact absurd hi (n2 _); exact absurd hi n1; exact absurd hi (n3 _)
  | restorePos w b hi => exact absurd hi n1
  | restoreLock w b lock hi => exact absurd hi n1
  | _ => exact h.congr rfl rfl rfl rfl rfl

theorem fit_moves {e : Env T} {s : State T} {status : Status} {w : World T} (hl : ProperList status.authorityList)
    (hs : ∀ b, e.walSave b = true) (h : status.height ≤ s.height → Fit s) (m : Moves e s status w) : Fit w.st := by
  cases m with
  | stay hh => exact h hh
  | away hh hp => intro h; exact absurd (hp.symm.trans h) (by simp)
  | lost hh hp hsv =>
    obtain ⟨b, _, h2⟩ := hsv
    rw [hs] at h2; cases h2
  | adopt hh hp hsv =>
    intro _
    refine ⟨status.authorityList, hl, rfl, ?_, fun r ty => ?_⟩
    · have : status.isConsensusNode s.address = true := hp
      unfold Status.isConsensusNode at this
      show s.address ∈ _
      simpa using this
    · have : poolD (s.adopted e.sh status).votes status.height r ty = .new := by
        unfold poolD VoteCollector.pool State.adopted
        dsimp only
        rw [get?_adopted_votes]
        simp
      show PoolOk _ _ _ _ (poolD (s.adopted e.sh status).votes status.height r ty)
      rw [this]
      exact PoolOk.new _ _ _ _

theorem fit_commit {e : Env T} {s : State T} {hash : Hash} {w : World T} (hc : ProperCommits e)
    (hs : ∀ b, e.walSave b = true) (h : Fit s) (o : CommitOut e s hash w) : Fit w.st := by
  cases o with
  | none => exact h
  | lost => exact h
  | failed => exact h
  | stuck content qc st x hb hq hsv hcm hx =>
    obtain ⟨_, _, l, hl⟩ := hc _ _ _ hcm
    rw [hl] at hx; cases hx
  | done content qc st w hb hq hsv hcm hm =>
    obtain ⟨hlt, hl, _⟩ := hc _ _ _ hcm
    have := fit_moves hl hs (s := { s with authority := Authority.update st.authorityList })
      (fun hh => absurd (show st.height ≤ s.height from hh) (by omega)) hm
    exact this

theorem fit_next {e : Env T} {i : Input T} {s : State T} (hp : ProperStep e i) (hi : i ≠ .start) (h : Fit s) : Fit (next e i s) := by
  by_cases hm : Mover i
  · rcases hm with h1 | ⟨st, rfl⟩ | ⟨hash, rfl⟩
    · exact absurd h1 hi
    · exact fit_moves (hp.2.2.2 _ rfl) hp.1 (fun _ => h) (status_moves e s st)
    · by_cases h' : s.consensusPower = false ∨ s.stopped = true
      · unfold next; rw [event_idle h']; exact h
      · simp only [not_or, Bool.not_eq_false, Bool.not_eq_true] at h'
        have o := event_out e s (.commit hash) h'.1 h'.2
        unfold next
        generalize (runArm (.event (.commit hash)) e ⟨s, []⟩).2 = w at *
        cases o with
        | commit _ o => exact fit_commit hp.2.1 hp.1 h o
  · exact fit_quiet hm h

/-- A node without votes. -/
def Empty (l : List Node) (s : State T) : Prop :=
  ProperList l ∧ s.authority = Authority.update l ∧ s.consensusPower = s.authority.contains s.address ∧ ∀ h r ty, poolD s.votes h r ty = .new

theorem Empty.fit {l : List Node} {s : State T} (h : Empty l s) : Fit s := by
  obtain ⟨h1, h2, h3, h4⟩ := h
  intro hp
  refine ⟨l, h1, h2, ?_, fun r ty => by rw [h4]; exact PoolOk.new _ _ _ _⟩
  rw [h3, h2, update_contains] at hp
  simpa using hp

theorem Empty.restored {l : List Node} {s : State T} (h : Empty l s) (w : WalInfo T) (p : Address) : Empty l (s.restored w p) := by
  obtain ⟨h1, h2, h3, h4⟩ := h
  unfold State.restored
  dsimp only
  split
  · exact ⟨h1, h2, h3, h4⟩
  · refine ⟨h1, h2, h3, fun h r ty => ?_⟩
    dsimp only
    rw [poolD_setQc, h4]

theorem Empty.new {l : List Node} (h : ProperList l) (a : Address) (ih iv : Nat) : Empty l (State.new (T := T) a ih iv l) :=
  ⟨h, rfl, rfl, fun _ _ _ => rfl⟩

theorem fit_start {e : Env T} {l : List Node} {s : State T} (hp : ProperStep e (.start (T := T))) (h : Empty l s) : Fit (next e .start s) := by
  have o := start_out e s
  unfold next at *
  generalize (runArm .start e ⟨s, []⟩).2 = w at *
  cases o with
  | idle hw => rw [hw]; exact h.fit
  | fresh hpw hl hh hw => rw [hw]; exact h.fit
  | noLeader b rec x hpw hl hd hx hw =>
    rw [hw]
    exact Empty.fit (l := l) ⟨h.1, h.2.1, h.2.2.1, h.2.2.2⟩
  | noLock b rec p hpw hl hd hx hst hk hw => rw [hw]; exact (h.restored _ _).fit
  | commit b rec p lock hpw hl hd hx hst hk o => exact fit_commit hp.2.1 hp.1 (h.restored _ _).fit o
  | resume b rec p hpw hl hd hx hst hsb hw => rw [hw]; exact (h.restored _ _).fit
  | brake b rec p hpw hl hd hx hst w1 o hw =>
    have hw' : w.st = w1.st := by rcases hw with rfl | rfl <;> rfl
    rw [hw']
    have h0 := (h.restored rec p).fit
    obtain ⟨k1, k2, k3, k4, _⟩ := o.keep
    exact h0.congr o.same.power k4 o.same.address o.same.height k1

/-- One step. -/
theorem step_same {e e' : Env T} {i : Input T} {s t : State T} (hp : ProperStep e i) (he : SameAnswers e e') (hs : SameState s t) (hf : Fit s) :
    (runArm i e ⟨s, []⟩).1 = (runArm i e' ⟨t, []⟩).1 ∧ SameState (runArm i e ⟨s, []⟩).2.st (runArm i e' ⟨t, []⟩).2.st ∧
      SameWork (runArm i e ⟨s, []⟩).2.log (runArm i e' ⟨t, []⟩).2.log := by
  obtain ⟨sh, rfl⟩ := he
  obtain ⟨h1, h2, _⟩ := bl_arm i e sh ⟨s, []⟩ ⟨t, []⟩ ⟨hp.1, hp.2.2.1⟩ hf ⟨hs, SameWork.nil⟩
  exact ⟨h1, h2.1, h2.2⟩

theorem run_same {ins ins' : List (Env T × Input T)} (hi : SameInputs ins ins') {s t : State T} (hs : SameState s t) (hf : Fit s)
    (hp : ∀ p ∈ ins, ProperStep p.1 p.2) (hn : ∀ p ∈ ins, p.2 ≠ .start) :
    SameEnd (s.after ins) (t.after ins') ∧ SameWork (s.trace ins) (t.trace ins') := by
  unfold SameInputs at hi
  induction hi generalizing s t with
  | nil => exact ⟨hs, SameWork.nil⟩
  | @cons p q l l' h1 h2 ih =>
    obtain ⟨e, i⟩ := p
    obtain ⟨e', i'⟩ := q
    obtain ⟨ha, hb⟩ := h1
    simp only at ha hb
    subst hb
    have hp1 := hp _ (List.mem_cons_self ..)
    obtain ⟨g1, g2, g3⟩ := step_same hp1 ha hs hf
    have hfit := fit_next hp1 (hn _ (List.mem_cons_self ..)) hf
    unfold next at hfit
    simp only [State.after, State.trace]
    cases hm : runArm i e ⟨s, []⟩ with
    | mk r v =>
      cases hm' : runArm i e' ⟨t, []⟩ with
      | mk r' v' =>
        rw [hm, hm'] at g1 g2 g3
        rw [hm] at hfit
        simp only at g1 g2 g3 hfit
        subst g1
        cases r with
        | error x => exact ⟨trivial, g3⟩
        | ok b =>
          cases b with
          | false => exact ⟨trivial, g3⟩
          | true =>
            have := ih g2 hfit (fun p h => hp p (List.mem_cons_of_mem _ h)) (fun p h => hn p (List.mem_cons_of_mem _ h))
            exact ⟨this.1, SameWork.append g3 this.2⟩

/-- From a fresh node. -/
theorem new_same {l : List Node} (hl : ProperList l) (a : Address) (ih iv : Nat) {ins ins' : List (Env T × Input T)} (hi : SameInputs ins ins')
    (hp : ProperHistory ins) :
    SameEnd ((State.new a ih iv l).after ins) ((State.new a ih iv l).after ins') ∧
      SameWork ((State.new a ih iv l).trace ins) ((State.new a ih iv l).trace ins') := by
  have he := Empty.new (T := T) hl a ih iv
  generalize State.new (T := T) a ih iv l = s at *
  obtain ⟨hp, hn⟩ := hp
  by_cases hs : ∀ p ∈ ins, p.2 ≠ .start
  · exact run_same hi (SameState.refl _) he.fit hp hs
  · cases hi with
    | nil => exact absurd (by simp) hs
    | @cons p q l1 l2 h1 h2 =>
      obtain ⟨e, i⟩ := p
      obtain ⟨e', i'⟩ := q
      obtain ⟨ha, hb⟩ := h1
      simp only at ha hb
      subst hb
      have hi : i = .start := by
        refine Decidable.byContradiction fun hne => hs fun p hm => ?_
        rcases List.mem_cons.1 hm with rfl | hm
        · exact hne
        · exact hn p hm
      subst hi
      have hp1 := hp _ (List.mem_cons_self ..)
      obtain ⟨g1, g2, g3⟩ := step_same hp1 ha (SameState.refl s) he.fit
      have hfit := fit_start hp1 he
      unfold next at hfit
      simp only [State.after, State.trace]
      cases hm : runArm .start e ⟨s, []⟩ with
      | mk r v =>
        cases hm' : runArm .start e' ⟨s, []⟩ with
        | mk r' v' =>
          rw [hm, hm'] at g1 g2 g3
          rw [hm] at hfit
          simp only at g1 g2 g3 hfit
          subst g1
          cases r with
          | error x => exact ⟨trivial, g3⟩
          | ok b =>
            cases b with
            | false => exact ⟨trivial, g3⟩
            | true =>
              have := run_same h2 g2 hfit (fun p h => hp p (List.mem_cons_of_mem _ h)) (fun p h => hn p h)
              exact ⟨this.1, SameWork.append g3 this.2⟩

/-- The actions that are literally the same. -/
theorem work_plain {l l' : List (Effect T)} (h : SameWork l l') : l.filter Spec.plain = l'.filter Spec.plain := by
  have key : ∀ a b : List (Effect T), List.Forall₂ SameEffect a b → a.filter Spec.plain = b.filter Spec.plain := by
    intro a b h
    induction h with
    | nil => rfl
    | @cons x y a b h1 h2 ih =>
      simp only [List.filter_cons, ih]
      have : (Spec.plain x = true → x = y) ∧ Spec.plain x = Spec.plain y := by
        cases x with
        | broadcast m => cases m <;> cases y <;> simp_all [SameEffect, Spec.plain] <;> rename_i m' <;> cases m' <;> simp_all [SameEffect, Spec.plain]
        | saveWal w b => cases y <;> simp_all [SameEffect, Spec.plain]
        | _ => simp only [SameEffect] at h1; subst h1; exact ⟨fun _ => rfl, rfl⟩
      rw [← this.2]
      split
      · rename_i hx; rw [this.1 hx]
      · rfl
  have sub : ∀ a : List (Effect T), a.filter Spec.plain = (a.filter fun x => !isSigCheck x).filter Spec.plain := by
    intro a
    rw [List.filter_filter]
    congr 1
    funext x
    cases x with
    | broadcast m => cases m <;> rfl
    | _ => rfl
  rw [sub l, sub l']
  exact key _ _ h.1

end Seed
end Overlord
