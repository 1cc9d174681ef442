import Verif.Proofs.Chain3

/-! A live node that carries out the plan. -/

set_option linter.unusedSimpArgs false
set_option linter.unusedVariables false
set_option linter.unusedSectionVars false

namespace Overlord.Chain
open M Spec Good

variable {T : Type} [ContentCodec T] [DecidableEq T]

section defs
variable (g : Nat → GoodRound T) (K : Nat) (P : Nat → Option (SignedProposal T)) (q : Nat → VoteType → Prop) (a : Address)
  (R : Nat → OverlordMsg T → Prop) (L : List (Effect T)) (n : NodeSys T)

/-- The node is at the `k`-th height. -/
structure At (k : Nat) : Prop where
  lt : k < K
  out : ∀ j, j < k → NodeOut (g j) (P j) (q j) a L n
  cur : ∃ D : OverlordMsg T → Prop, (∀ m, D m → R k m) ∧ (∀ m, R k m → ∃ m', D m' ∧ Stands m' m) ∧
    (NodeIn (g k) (P k) (q k) a D L n ∧ Last n ∨
      ∃ k', k = k' + 1 ∧ ∃ old new st, Between (g k') (g k) (P k) (q k) a D L n old new st)
  lead : ∀ j, k < j → j < K → a = (g j).leader → P j = none
  side : Side g K k R L n

/-- The node has carried out the plan. -/
structure Gone : Prop where
  out : ∀ j, j < K → NodeOut (g j) (P j) (q j) a L n
  up : (g K).height ≤ n.st.height
  blocks : planned g K <+: blocksOf L

def NodeAt : Prop := (∃ k, At g K P q a R L n k) ∨ Gone g K P q a L n

end defs

variable {g : Nat → GoodRound T} {K : Nat} {P P' : Nat → Option (SignedProposal T)} {q q' : Nat → VoteType → Prop} {a : Address}
  {R R' : Nat → OverlordMsg T → Prop} {L : List (Effect T)} {n n' : NodeSys T} {k : Nat}

/-- The node, or the node as it will be. -/
theorem At.view (h : At g K P q a R L n k) : ∃ n1 : NodeSys T, (∃ D, NodeIn (g k) (P k) (q k) a D L n1) ∧ n1.st = n.st ∧ n1.verifying = n.verifying ∧
    n1.verifiedQ = n.verifiedQ ∧ n1.respQ = n.respQ := by
  obtain ⟨D, _, _, ⟨h1, _⟩ | ⟨k', _, old, new, st, h1⟩⟩ := h.cur
  · exact ⟨n, ⟨D, h1⟩, rfl, rfl, rfl, rfl⟩
  · exact ⟨_, ⟨D, h1.inn⟩, rfl, rfl, rfl, rfl⟩

theorem At.height (h : At g K P q a R L n k) : n.st.height = (g k).height := by
  obtain ⟨n1, ⟨D, h1⟩, h2, _⟩ := h.view
  rw [← h2]; exact h1.core.st.height

theorem NodeAt.sends (h : NodeAt g K P q a R L n) {j : Nat} (hj : j < K) : Sends (g j) (P j) a L := by
  rcases h with ⟨k, h⟩ | h
  · rcases Nat.lt_trichotomy j k with h1 | h1 | h1
    · exact (h.out j h1).sends
    · subst h1
      obtain ⟨n1, ⟨D, h2⟩, _⟩ := h.view
      exact h2.core.sends
    · exact ⟨fun m hm hh => absurd hh (h.side.mute1 j h1 m hm), fun d m hm hh => absurd hh (h.side.mute2 j h1 d m hm)⟩
  · exact (h.out j hj).sends

theorem Between.mono {g g' : GoodRound T} {P P' : Option (SignedProposal T)} {q q' : VoteType → Prop} {D : OverlordMsg T → Prop} {old new : List SMRTrigger} {st : Status}
    (h : Between g g' P q a D L n old new st) (hP : ∀ sp, P = some sp → P' = some sp) (hq : ∀ ty, q ty → q' ty)
    (ha : a = g'.leader → P' = P) : Between g g' P' q' a D L n old new st :=
  { h with inn := h.inn.mono hP hq ha }

theorem Between.less {g g' : GoodRound T} {P : Option (SignedProposal T)} {q : VoteType → Prop} {D D' : OverlordMsg T → Prop} {old new : List SMRTrigger} {st : Status}
    (h : Between g g' P q a D L n old new st) (hD : ∀ m, D' m → D m) : Between g g' P q a D' L n old new st :=
  { h with inn := h.inn.less hD }

theorem NodeAt.mono (h : NodeAt g K P q a R L n) (hP : ∀ j, j < K → ∀ sp, P j = some sp → P' j = some sp) (hq : ∀ j ty, q j ty → q' j ty)
    (ha : ∀ j, j < K → a = (g j).leader → P' j = P j) : NodeAt g K P' q' a R L n := by
  rcases h with ⟨k, h⟩ | h
  · refine .inl ⟨k, h.lt, fun j hj => (h.out j hj).mono (hP j (Nat.lt_trans hj h.lt)) (hq j), ?_, fun j hj hK hl => (ha j hK hl).trans (h.lead j hj hK hl), h.side⟩
    obtain ⟨D, d1, d2, ⟨h1, h2⟩ | ⟨k', hk, old, new, st, h1⟩⟩ := h.cur
    · exact ⟨D, d1, d2, .inl ⟨h1.mono (hP k h.lt) (hq k) (ha k h.lt), h2⟩⟩
    · exact ⟨D, d1, d2, .inr ⟨k', hk, old, new, st, h1.mono (hP k h.lt) (hq k) (ha k h.lt)⟩⟩
  · exact .inr { h with out := fun j hj => (h.out j hj).mono (hP j hj) (hq j) }

theorem out_step {g : GoodRound T} {P : Option (SignedProposal T)} {q : VoteType → Prop} {x : NAct T} {eff : List (Effect T)} (h : NodeOut g P q a L n) (hu : Undisturbed x)
    (hx : n.act a x = some n') (hlog : n'.log = n.log ++ eff) : NodeOut g P (newQ g q eff) a (L ++ eff) n' := by
  obtain ⟨eff', h1, h2⟩ := h.act (by rintro p e cut rfl; exact hu) (by rintro y e cut rfl; exact hu) hx
  have : eff' = eff := List.append_cancel_left (h1.symm.trans hlog)
  subst this
  exact h2.mono (fun _ h => h) (fun _ h => .inl h)

theorem log_ext {x : NAct T} (hu : Undisturbed x) (hx : n.act a x = some n') : ∃ eff, n'.log = n.log ++ eff := by
  rcases act_arm hu hx with ⟨y, e, i, n1, rfl, ht, rfl⟩ | ⟨h1, h2, h3, h4, h5⟩
  · refine ⟨(runArm i e ⟨n.st, []⟩).2.log, ?_⟩
    show n1.log ++ _ = _
    have : n1.log = n.log := by
      unfold NodeSys.take at ht
      cases y with
      | raw m => cases ht; rfl
      | event => dsimp only at ht; split at ht <;> cases ht; rfl
      | resp => dsimp only at ht; split at ht <;> cases ht; rfl
      | verified => dsimp only at ht; split at ht <;> cases ht; rfl
    rw [this]; rfl
  · exact ⟨[], by rw [h2, List.append_nil]⟩

/-- Heights never go down. -/
theorem height_le {x : NAct T} (hu : Undisturbed x) (hx : n.act a x = some n') : n.st.height ≤ n'.st.height := by
  rcases act_arm hu hx with ⟨y, e, i, n1, rfl, ht, rfl⟩ | ⟨h1, h2, h3, h4, h5⟩
  · have hi : i ≠ .start := by
      unfold NodeSys.take at ht
      cases y with
      | raw m => cases ht; simp
      | event => dsimp only at ht; split at ht <;> cases ht; simp
      | resp => dsimp only at ht; split at ht <;> cases ht; simp
      | verified => dsimp only at ht; split at ht <;> cases ht; simp
    cases hk : n.st.height with
    | zero => exact Nat.zero_le _
    | succ k => exact (high_run (e := e) (k := k) (by omega) hi).1
  · rw [h3]

theorem Gone.step {x : NAct T} (h : Gone g K P q a L n) (hu : Undisturbed x) (hx : n.act a x = some n') :
    ∃ eff, n'.log = n.log ++ eff ∧ Gone g K P (fun j => newQ (g j) (q j) eff) a (L ++ eff) n' := by
  obtain ⟨eff, hlog⟩ := log_ext hu hx
  refine ⟨eff, hlog, fun j hj => out_step (h.out j hj) hu hx hlog, Nat.le_trans h.up (height_le hu hx), ?_⟩
  rw [blocksOf_append]
  exact h.blocks.trans (List.prefix_append _ _)

omit [ContentCodec T] [DecidableEq T] in
theorem planned_succ (k : Nat) : planned g (k + 1) = planned g k ++ [((g k).height, (g k).block)] := by
  unfold planned
  rw [List.range_succ, List.map_append]
  rfl

theorem keeps {x : NAct T} (hu : Undisturbed x) (hsm : x ≠ .smr) (hev : ∀ e cut, x ≠ .arm .event e cut) (hx : n.act a x = some n') :
    n'.stQ = n.stQ ∧ n'.sys.smr = n.sys.smr := by
  unfold NodeSys.act at hx
  cases x with
  | start p e cut => exact hu.elim
  | crash => exact hu.elim
  | fire i => exact hu.elim
  | smr => exact absurd rfl hsm
  | arm y e cut =>
    dsimp only at hx
    split at hx
    · cases hx
    · split at hx
      · cases hx
      · rename_i i n1 ht
        cases hx
        unfold NodeSys.take at ht
        cases y with
        | event => exact absurd rfl (hev e cut)
        | raw m => cases ht; exact ⟨rfl, rfl⟩
        | resp => dsimp only at ht; split at ht <;> cases ht; exact ⟨rfl, rfl⟩
        | verified => dsimp only at ht; split at ht <;> cases ht; exact ⟨rfl, rfl⟩
  | verifyDone c i =>
    dsimp only at hx
    split at hx
    · cases hx
    · split at hx <;> cases hx
      exact ⟨rfl, rfl⟩
  | checkDone i ok =>
    dsimp only at hx
    split at hx
    · cases hx
    · split at hx <;> cases hx
      exact ⟨rfl, rfl⟩
  | set =>
    dsimp only at hx
    split at hx
    · cases hx
    · obtain ⟨sys, h1, rfl⟩ := Option.map_eq_some_iff.1 hx
      unfold TimerSys.act at h1
      dsimp only at h1
      split at h1 <;> cases h1
      exact ⟨rfl, rfl⟩
  | expire i =>
    dsimp only at hx
    split at hx
    · cases hx
    · obtain ⟨sys, h1, rfl⟩ := Option.map_eq_some_iff.1 hx
      unfold TimerSys.act at h1
      dsimp only at h1
      split at h1 <;> cases h1
      exact ⟨rfl, rfl⟩

/-- One step of a node at the `k`-th height. -/
theorem At.step {x : NAct T} (hp : Plan g K) (hE : Encodes T) (h : At g K P q a R L n k) (hP : ∀ sp, P k = some sp → IsProp (g k) sp)
    (hR : ∀ m, R k m → m.getHeight? = some (g k).height ∧ msgRound m = (g k).round ∧ OfLive (g k) m)
    (hv : VerifyOk (g k) (P k) (q k) (R k) n.st n.verifying x)
    (hr : Ahd g K k R R' x)
    (hgood : ∀ j, k < j → j < K → ∀ m, R j m → (∃ sp, m = .signedProposal sp ∧ P j = some sp) ∨
      ∃ ty qc, m = .aggregatedVote qc ∧ GoodQc (g j) ty qc ∧ q j ty ∧ P j ≠ none)
    (hs : Calm (g k) x) (had : Advances (g k).height (g (k + 1)).list x) (hx : n.act a x = some n') :
    ∃ eff Pk, n'.log = n.log ++ eff ∧ (∀ sp, P k = some sp → Pk = some sp) ∧
      (Pk ≠ P k → a = (g k).leader ∧ ∃ sp, Pk = some sp ∧ IsProp (g k) sp ∧ .broadcast (.signedProposal sp) ∈ eff) ∧
      NodeAt g K (Function.update P k Pk) (fun j => newQ (g j) (q j) eff) a R' (L ++ eff) n' := by
  have hg := hp.ok k (Nat.le_of_lt h.lt)
  have hu := calm_undisturbed hs
  obtain ⟨n1, ⟨D1, v1⟩, v2, v3, v4, v5⟩ := h.view
  have hst : Inv (g k) (P k) n.st := by rw [← v2]; exact v1.core.st
  have hhere : Here (g k) n x := by
    refine ⟨h.height, hst.power, hst.authority, ⟨?_, ?_⟩, ?_, ?_, ?_, ?_, ?_⟩
    · rw [h.height]; exact hg.heights
    · have h1 := hst.low
      have h2 : (g k).round + 10 < 2 ^ 64 := hg.rounds
      omega
    · rintro y e cut rfl
      cases y <;> exact hs.1.mode
    · intro sc hsc
      rw [← v4] at hsc
      rcases v1.core.ver _ hsc with ⟨sp, h1, _⟩ | ⟨ty, qc, h1, _⟩ | ⟨sv, h1, _⟩ | ⟨_, _, h1⟩
      · cases h1
      · cases h1
      · cases h1
      · rcases h1 with h1 | ⟨h1, _⟩ | ⟨h1, h3, _⟩
        · refine .inl fun h2 => h1 ?_
          show some sc.choke.height = _
          rw [h2, h.height]
        · right; rw [← v2]; exact Nat.le_of_lt h1
        · right; rw [← v2, h1]; exact Nat.le_of_eq h3.1
    · intro m hm
      rw [← v4] at hm
      exact MsgOk.form (v1.core.ver m hm)
    · rintro m e cut rfl
      exact hs.2.2
    · intro r hr
      rw [← v5] at hr
      exact (v1.core.resp r hr).imp (fun ⟨h1, _⟩ => by rw [h1]) id
  have hone : ∀ j, k < j → j < K → ∀ sp sp', R j (.signedProposal sp) → R j (.signedProposal sp') → sp = sp' := by
    intro j hj hjK sp sp' h1 h2
    rcases hgood j hj hjK _ h1 with ⟨x1, h3, h4⟩ | ⟨_, _, h3, _⟩
    · rcases hgood j hj hjK _ h2 with ⟨x2, h5, h6⟩ | ⟨_, _, h5, _⟩
      · cases h3; cases h5
        rw [h4] at h6
        exact Option.some.inj h6
      · cases h5
    · cases h3
  have side : ∀ {eff}, (∀ e cut, x = .arm .event e cut → ∀ y q, n.stQ ≠ .commit y :: q) → n'.log = n.log ++ eff → Side g K k R' (L ++ eff) n' ∧ n'.st.height = (g k).height :=
    fun hnc hlog => h.side.step hp hr hhere hone hu hnc hx hlog
  -- the proposal of the height does not change
  have stay : ∀ {eff}, n'.log = n.log ++ eff → (∀ e cut, x = .arm .event e cut → ∀ y q, n.stQ ≠ .commit y :: q) →
      (∃ D' : OverlordMsg T → Prop, (∀ m, D' m → R' k m) ∧ (∀ m, R' k m → ∃ m', D' m' ∧ Stands m' m) ∧
      (NodeIn (g k) (P k) (newQ (g k) (q k) eff) a D' (L ++ eff) n' ∧ Last n' ∨
        ∃ k', k = k' + 1 ∧ ∃ old new st, Between (g k') (g k) (P k) (newQ (g k) (q k) eff) a D' (L ++ eff) n' old new st)) →
      ∃ eff Pk, n'.log = n.log ++ eff ∧ (∀ sp, P k = some sp → Pk = some sp) ∧
      (Pk ≠ P k → a = (g k).leader ∧ ∃ sp, Pk = some sp ∧ IsProp (g k) sp ∧ .broadcast (.signedProposal sp) ∈ eff) ∧
      NodeAt g K (Function.update P k Pk) (fun j => newQ (g j) (q j) eff) a R' (L ++ eff) n' := by
    intro eff hlog hnc hcur
    refine ⟨eff, P k, hlog, fun _ h => h, fun h => absurd rfl h, .inl ⟨k, ?_⟩⟩
    rw [Function.update_eq_self]
    exact ⟨h.lt, fun j hj => out_step (h.out j hj) hu hx hlog, hcur, h.lead, (side hnc hlog).1⟩
  obtain ⟨D, d1, d2, hcur⟩ := h.cur
  have hD : ∀ m, D m → m.getHeight? = some (g k).height ∧ msgRound m = (g k).round ∧ OfLive (g k) m := fun m hm => hR m (d1 m hm)
  have hv' : VerifyOk (g k) (P k) (q k) D n.st n.verifying x := fun c i hx m au hi hh => ⟨fun h1 => (hv c i hx m au hi hh).1 (d1 m h1), (hv c i hx m au hi hh).2⟩
  -- what has arrived after the step
  obtain ⟨D', e1, e2, e3⟩ : ∃ D' : OverlordMsg T → Prop, (∀ m, D' m → R' k m) ∧ (∀ m, R' k m → ∃ m', D' m' ∧ Stands m' m) ∧
      ∀ m, D' m → D m ∨ m.getHeight? = some (g k).height ∧ ∃ e, x = .arm (.raw m) e none := by
    refine ⟨fun m => D m ∨ R' k m ∧ m.getHeight? = some (g k).height ∧ ∃ e, x = .arm (.raw m) e none, ?_, ?_, ?_⟩
    · rintro m (h1 | h1)
      · exact hr.grow _ _ (d1 m h1)
      · exact h1.1
    · intro m hm
      rcases hr.fresh k m hm with h1 | h1
      · obtain ⟨m', h2, h3⟩ := d2 m h1
        exact ⟨m', .inl h2, h3⟩
      · exact ⟨m, .inr ⟨hm, h1⟩, .inl rfl⟩
    · rintro m (h1 | h1)
      · exact .inl h1
      · exact .inr h1.2
  rcases hcur with ⟨hin, hl⟩ | ⟨k', rfl, old, new, st, hb⟩
  · by_cases hsm : x = .smr
    · subst hsm
      obtain ⟨h1, h2⟩ := hin.smr hg hx
      have h3 := hl.smr hg hin hx
      refine stay (eff := []) (by rw [h1, List.append_nil]) (by simp) ⟨D', e1, e2, .inl ⟨?_, h3⟩⟩
      rw [List.append_nil]
      refine (h2.mono (fun _ h => h) (fun _ h => .inl h) (fun _ => rfl)).less fun m hm => ?_
      rcases e3 m hm with h4 | ⟨_, e, h4⟩
      · exact h4
      · cases h4
    · by_cases hev : ∃ e cut, x = .arm .event e cut
      · obtain ⟨e, cut, rfl⟩ := hev
        have hcut : cut = none := hs.2
        subst hcut
        have he : GoodEnv (g k) e := hs.1
        have hDD : ∀ m, D' m → D m := by
          intro m hm
          rcases e3 m hm with h4 | ⟨_, e, h4⟩
          · exact h4
          · cases h4
        by_cases hcm : ∃ y evs, n.stQ = .commit y :: evs
        · -- the commit
          obtain ⟨y, evs, hsq⟩ := hcm
          have hRR : R' = R := by
            funext j m
            refine propext ⟨fun hm => ?_, hr.grow j m⟩
            rcases hr.fresh j m hm with h1 | ⟨_, e', h1⟩
            · exact h1
            · cases h1
          subst hRR
          have hle : k + 1 ≤ K := h.lt
          have hnx := hp.next k
          have hfullk : k + 1 < K → n.st.isFullTransaction.get? (g (k + 1)).hash = none := fun h1 => h.side.full _ (Nat.lt_succ_self _) h1
          have hq : HasQc (g k) n.st .precommit := by
            rcases hin.shape with h1 | ⟨nri, post, h1, h2, _⟩
            · exact (h1.evs (.commit y) (by rw [hsq]; simp)).2.1
            · rw [hsq] at h1; cases h1; exact h2.elim
          have hPne : P k ≠ none := fun hPn => (hin.core.st.calm hPn).1 _ hq
          obtain ⟨eff, st, c, k1, k2, ⟨k3, k4, k5, k6⟩, k7, k8, k9, k10, k11, k12, k13, k15, k16, k14⟩ := enter hg (hp.ok (k + 1) hle) hnx (hp.first k).1 (hp.first k).2
            ((hp.live (k + 1)).trans (hp.live k).symm) he hE hin hl hsq h.side.filed had (h.side.mute1 _ (Nat.lt_succ_self _)) (h.side.mute2 _ (Nat.lt_succ_self _)) hx
          have hout : ∀ j, j < k + 1 → NodeOut (g j) (P j) (newQ (g j) (q j) eff) a (L ++ eff) n' := by
            intro j hj
            rcases Nat.lt_succ_iff_lt_or_eq.1 hj with h1 | rfl
            · exact out_step (h.out j h1) hu hx k1
            · refine ⟨by rw [k9, hnx]; exact Nat.lt_succ_self _, ⟨c, some st, List.mem_append.2 (.inr k3), k4, k5, k6⟩, .inl (hin.core.has _ hq), hPne, hin.core.sends.app (.quiet k7 k8)⟩
          have hbl : blocksOf (L ++ eff) = planned g (k + 1) := by
            rw [blocksOf_append, h.side.blocks, k2, planned_succ]
          refine ⟨eff, P k, k1, fun _ h => h, fun h => absurd rfl h, ?_⟩
          rw [Function.update_eq_self]
          by_cases hK : k + 1 < K
          · have hk1 := Nat.lt_succ_self k
            refine .inl ⟨k + 1, hK, hout, ⟨fun m => R' (k + 1) m ∧ (m ∈ n.verifiedQ ∨ Early.InCache n.st m), fun m hm => hm.1, fun m hm => ?_, .inr ⟨k, rfl, _, _, st,
              k14 (P (k + 1)) _ _ (h.lead (k + 1) hk1 hK) (h.side.full _ hk1 hK) (fun m hm hh => ?_) (fun m hm => ⟨hr.height _ _ hm.1, hm.2⟩)⟩⟩,
              fun j hj => h.lead j (by omega), ⟨?_, ?_, ?_, ?_, ?_, ?_, ?_, k13, hbl⟩⟩
            · obtain ⟨m', h1, h2, h3⟩ := h.side.kept (k + 1) hk1 hK m hm
              exact ⟨m', ⟨h1, h3⟩, h2⟩
            · rcases h.side.soon m hm (k + 1) hk1 hK hh with h1 | ⟨h1, _⟩
              · exact .inr (.inr h1)
              · rcases hgood (k + 1) hk1 hK m h1 with h2 | ⟨ty, qc, h2, h3, h4, h5⟩
                · exact .inl h2
                · exact .inr (.inl ⟨ty, qc, h2, h3, .inl h4, h5⟩)
            · intro j hj m hm
              rcases List.mem_append.1 hm with hm | hm
              · exact h.side.mute1 j (by omega) m hm
              · exact absurd hm (k7 m)
            · intro j hj d m hm
              rcases List.mem_append.1 hm with hm | hm
              · exact h.side.mute2 j (by omega) d m hm
              · exact absurd hm (k8 d m)
            · intro j hj hjK
              rw [k10]
              exact h.side.full j (by omega) hjK
            · intro m hm j hj hjK hh
              rw [k11] at hm
              refine (h.side.soon m hm j (by omega) hjK hh).imp id fun ⟨h1, h2, h3⟩ => ⟨h1, by omega, fun h4 i hi => h3 h4 i (by omega)⟩
            · intro j hj hjK sp hsp
              refine h.side.props j (by omega) hjK sp ?_
              have hlt := Plan.lt hp hj
              rw [k15] at hsp
              have hsp : ((n.st.proposals.flush (st.height - 1)).getHeightProposals e.sh st.height).2.get (g j).height (g j).round = .ok sp := hsp
              unfold ProposalCollector.get at hsp ⊢
              rwa [get?_adopted_proposals, if_neg (by omega), if_pos (by omega)] at hsp
            · intro j hj hjK m hm
              obtain ⟨m', h1, h2, h3⟩ := h.side.kept j (by omega) hjK m hm
              refine ⟨m', h1, h2, h3.imp (fun h4 => by rw [k11]; exact h4) fun h4 => ?_⟩
              have hlt := Plan.lt hp hj
              have hhg : Early.hgt m' = (g j).height := by
                have := hr.height j m' h1
                rw [inCache_height h4] at this
                exact Option.some.inj this
              rw [k15]
              refine Early.inCache_congr ?_ ?_ h4
              · show AMap.get? ((n.st.votes.flush (st.height - 1)).getHeightVotes e.sh st.height).2 _ = _
                rw [get?_adopted_votes, if_neg (by omega), if_pos (by omega)]
              · show AMap.get? ((n.st.proposals.flush (st.height - 1)).getHeightProposals e.sh st.height).2 _ = _
                rw [get?_adopted_proposals, if_neg (by omega), if_pos (by omega)]
            · intro y hy h' hh
              rcases k12 y hy with h1 | h1
              · have := h.side.low2 y h1 h' hh
                omega
              · rw [h1] at hh; cases hh; exact Nat.le_refl _
          · have hKK : K = k + 1 := by omega
            refine .inr ⟨fun j hj => hout j (by omega), ?_, ?_⟩
            · rw [hKK, k9]
            · rw [hKK, hbl]; exact List.prefix_refl _
        · -- other events
          have hnc : ∀ e' cut, NAct.arm Arm.event e none = .arm .event e' cut → ∀ y q, n.stQ ≠ .commit y :: q := fun _ _ _ y q h => hcm ⟨y, q, h⟩
          obtain ⟨eff, Pk, h1, h2, h3, h4⟩ := hin.event hg he hE hP hx
          obtain ⟨s1, s2⟩ := side hnc h1
          rcases h4 with h4 | h4
          · refine ⟨eff, Pk, h1, h2, h3, .inl ⟨k, h.lt, fun j hj => ?_, ⟨D', e1, e2, .inl ⟨?_, ?_⟩⟩, fun j hj => ?_, s1⟩⟩
            · rw [Function.update_of_ne (by omega)]
              exact out_step (h.out j hj) hu hx h1
            · rw [Function.update_self]
              exact h4.less hDD
            · unfold NodeSys.act at hx
              rw [hin.core.up] at hx
              simp only [Bool.false_eq_true, if_false, NodeSys.take] at hx
              cases hsq : n.stQ with
              | nil => rw [hsq] at hx; cases hx
              | cons ev evs =>
                rw [hsq] at hx
                simp only [Option.some.injEq] at hx
                subst hx
                exact hl.pop (ev := ev) hsq rfl
            · rw [Function.update_of_ne (by omega)]
              exact h.lead j hj
          · have := h4.height
            omega
      · have hev' : ∀ e cut, x ≠ .arm .event e cut := fun e cut h => hev ⟨e, cut, h⟩
        obtain ⟨eff, h1, h2⟩ := inner_step (D' := D') hg hin hP hD hv' e3 hs hsm hev' hx
        refine stay h1 (fun e cut h => absurd h (hev' e cut)) ⟨D', e1, e2, .inl ⟨h2, ?_⟩⟩
        exact hl.keep (keeps hu hsm hev' hx).1 (keeps hu hsm hev' hx).2
  · obtain ⟨eff, h1, h2⟩ := between_step (D' := D') hg (Plan.lt hp (Nat.lt_succ_self k')) hb hP hD hv' e3 hs hx
    refine stay h1 ?_ ⟨D', e1, e2, ?_⟩
    · intro e cut _ y q hsq
      rw [hb.ev] at hsq; cases hsq
    · rcases h2 with ⟨old', new', h2⟩ | ⟨h2, h3⟩
      · exact .inr ⟨k', rfl, old', new', st, h2⟩
      · exact .inl ⟨h2, h3⟩

end Overlord.Chain
