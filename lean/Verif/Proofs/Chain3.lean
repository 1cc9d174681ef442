import Verif.Proofs.Chain2
import Verif.Proofs.NodeAuth

/-! Steps of a node between two heights; what the steps of a node leave alone. -/

set_option linter.unusedSimpArgs false
set_option linter.unusedVariables false
set_option linter.unusedSectionVars false

namespace Overlord.Chain
open M Spec Good

variable {T : Type} [ContentCodec T] [DecidableEq T]

/-- A step is an input of the State, or leaves the State and the log alone. -/
theorem act_arm {a : Address} {n n' : NodeSys T} {x : NAct T} (hu : Undisturbed x) (hx : n.act a x = some n') :
    (∃ y e i n1, x = .arm y e none ∧ n.take y = some (i, n1) ∧ n' = n1.took none (runArm i e ⟨n.st, []⟩)) ∨
    ((∀ y e cut, x ≠ .arm y e cut) ∧ n'.log = n.log ∧ n'.st = n.st ∧
      (∀ m ∈ n'.verifiedQ, m ∈ n.verifiedQ ∨ ∃ au, (m, au) ∈ n.verifying) ∧ ∀ y ∈ n'.verifying, y ∈ n.verifying) := by
  unfold NodeSys.act at hx
  cases x with
  | start p e cut => exact hu.elim
  | crash => exact hu.elim
  | fire i => exact hu.elim
  | arm y e cut =>
    have : cut = none := hu
    subst this
    dsimp only at hx
    split at hx
    · cases hx
    · split at hx
      · cases hx
      · rename_i i n1 ht
        cases hx
        exact .inl ⟨y, e, i, n1, rfl, ht, rfl⟩
  | verifyDone c i =>
    dsimp only at hx
    split at hx
    · cases hx
    · split at hx
      · cases hx
      · rename_i m au hi
        cases hx
        refine .inr ⟨by simp, rfl, rfl, fun m' hm => ?_, fun y hy => List.mem_of_mem_eraseIdx hy⟩
        rcases List.mem_append.1 hm with hm | hm
        · exact .inl hm
        · split at hm
          · rw [List.mem_singleton] at hm
            subst hm
            exact .inr ⟨au, List.mem_of_getElem? hi⟩
          · cases hm
  | checkDone i ok =>
    dsimp only at hx
    split at hx
    · cases hx
    · split at hx <;> cases hx
      exact .inr ⟨by simp, rfl, rfl, fun _ h => .inl h, fun _ h => h⟩
  | smr =>
    dsimp only at hx
    split at hx
    · cases hx
    · split at hx
      · cases hx
      · split at hx <;> cases hx
        exact .inr ⟨by simp, rfl, rfl, fun _ h => .inl h, fun _ h => h⟩
  | set =>
    dsimp only at hx
    split at hx
    · cases hx
    · obtain ⟨sys, h1, rfl⟩ := Option.map_eq_some_iff.1 hx
      exact .inr ⟨by simp, rfl, rfl, fun _ h => .inl h, fun _ h => h⟩
  | expire i =>
    dsimp only at hx
    split at hx
    · cases hx
    · obtain ⟨sys, h1, rfl⟩ := Option.map_eq_some_iff.1 hx
      exact .inr ⟨by simp, rfl, rfl, fun _ h => .inl h, fun _ h => h⟩

/-- Other steps take nothing from the State's queue. -/
theorem kept_verified {a : Address} {n n' : NodeSys T} {x : NAct T} {m : OverlordMsg T} (hu : Undisturbed x) (hna : ∀ y e cut, x ≠ .arm y e cut) (hx : n.act a x = some n')
    (hm : m ∈ n.verifiedQ) : m ∈ n'.verifiedQ := by
  unfold NodeSys.act at hx
  cases x with
  | start p e cut => exact hu.elim
  | crash => exact hu.elim
  | fire i => exact hu.elim
  | arm y e cut => exact absurd rfl (hna y e cut)
  | verifyDone c i =>
    dsimp only at hx
    split at hx
    · cases hx
    · split at hx <;> cases hx
      exact List.mem_append.2 (.inl hm)
  | checkDone i ok =>
    dsimp only at hx
    split at hx
    · cases hx
    · split at hx <;> cases hx
      exact hm
  | smr =>
    dsimp only at hx
    split at hx
    · cases hx
    · split at hx
      · cases hx
      · split at hx <;> cases hx
        exact hm
  | set =>
    dsimp only at hx
    split at hx
    · cases hx
    · obtain ⟨sys, h1, rfl⟩ := Option.map_eq_some_iff.1 hx
      exact hm
  | expire i =>
    dsimp only at hx
    split at hx
    · cases hx
    · obtain ⟨sys, h1, rfl⟩ := Option.map_eq_some_iff.1 hx
      exact hm

theorem height_same {e : Env T} {i : Input T} {s : State T} (h1 : i ≠ .start) (h2 : ∀ st, i ≠ .verified (.richStatus st))
    (h3 : ∀ x, i ≠ .event (.commit x)) : (next e i s).height = s.height := by
  refine arm_inv (e := e) (i := i) (s := s) (P := fun w => w.st.height = s.height) rfl ?_
  rintro ⟨s1, l⟩ eff s' h4 hm
  dsimp only at *
  have hmv : ∀ st, (i = .verified (.richStatus st) ∨ i = .start ∨ ∃ h, i = .event (.commit h)) → False := by
    rintro st (h | h | ⟨x, h⟩)
    exacts [h2 _ h, h1 h, h3 _ h]
  cases hm with
  | move st hi hh => exact (hmv st hi).elim
  | moveLost st hsv hi hh => exact (hmv st hi).elim
  | adopt st hsv hi hh => exact (hmv st hi).elim
  | restorePos w b hi => exact absurd hi h1
  | _ => exact h4

/-- What may wait, unverified, at a node at the `k`-th height, about the `j`-th. `R j`: what has arrived from live nodes. -/
def Expected (g : Nat → GoodRound T) (k : Nat) (R : Nat → OverlordMsg T → Prop) (m : OverlordMsg T) (j : Nat) : Prop :=
  (∃ sv, m = .signedVote sv ∧ (g j).live sv.voter = false) ∨
  R j m ∧ (g j).height ≤ (g k).height + 4 ∧ ((∃ sp, m = .signedProposal sp) → ∀ i, k ≤ i → i < j → Foreseen g i j)

/-- What a node at the `k`-th height has not yet to do with the later heights, and what it has. -/
structure Side (g : Nat → GoodRound T) (K k : Nat) (R : Nat → OverlordMsg T → Prop) (L : List (Effect T)) (n : NodeSys T) : Prop where
  mute1 : ∀ j, k < j → ∀ m, .broadcast m ∈ L → m.getHeight? ≠ some (g j).height
  mute2 : ∀ j, k < j → ∀ d m, .transmit d m ∈ L → m.getHeight? ≠ some (g j).height
  full : ∀ j, k < j → j < K → n.st.isFullTransaction.get? (g j).hash = none
  soon : ∀ m ∈ n.verifiedQ, ∀ j, k < j → j < K → m.getHeight? = some (g j).height → Expected g k R m j
  props : ∀ j, k < j → j < K → ∀ sp, n.st.proposals.get (g j).height (g j).round = .ok sp → R j (.signedProposal sp)
  kept : ∀ j, k < j → j < K → ∀ m, R j m → ∃ m', R j m' ∧ Stands m' m ∧ (m' ∈ n.verifiedQ ∨ Early.InCache n.st m')
  low2 : ∀ x ∈ n.verifying, ∀ h, x.1.getHeight? = some h → h ≤ (g k).height
  filed : Filed n.st
  blocks : blocksOf L = planned g k

omit [ContentCodec T] [DecidableEq T] in
theorem Plan.mono {g : Nat → GoodRound T} {K : Nat} (hp : Plan g K) (k j : Nat) : (g (k + j)).height = (g k).height + j := by
  induction j with
  | zero => rfl
  | succ j ih =>
    rw [← Nat.add_assoc, hp.next, ih]
    omega

omit [ContentCodec T] [DecidableEq T] in
theorem Plan.lt {g : Nat → GoodRound T} {K : Nat} (hp : Plan g K) {k j : Nat} (h : k < j) : (g k).height < (g j).height := by
  obtain ⟨d, rfl⟩ := Nat.exists_eq_add_of_lt h
  have := Plan.mono hp k (d + 1)
  rw [Nat.add_assoc, this]
  omega

/-- What the node needs to know about the messages of later heights. -/
structure Ahd (g : Nat → GoodRound T) (K k : Nat) (R R' : Nat → OverlordMsg T → Prop) (x : NAct T) : Prop where
  grow : ∀ j m, R j m → R' j m
  fresh : ∀ j m, R' j m → R j m ∨ m.getHeight? = some (g j).height ∧ ∃ e, x = .arm (.raw m) e none
  height : ∀ j m, R j m → m.getHeight? = some (g j).height
  good : ∀ j, k < j → j < K → ∀ m, R j m → (∃ sp, m = .signedProposal sp ∧ IsProp (g j) sp) ∨ ∃ ty qc, m = .aggregatedVote qc ∧ GoodQc (g j) ty qc
  raw : ∀ m e cut, x = .arm (.raw m) e cut → ∀ j, k < j → j < K → m.getHeight? = some (g j).height → Expected g k R' m j

/-- The State is at the `k`-th height. -/
structure Here (g : GoodRound T) (n : NodeSys T) (x : NAct T) : Prop where
  height : n.st.height = g.height
  power : n.st.consensusPower = true
  authority : n.st.authority = Authority.update g.list
  wrap : NoWrap n.st
  mode : ∀ y e cut, x = .arm y e cut → e.mode = g.mode
  choke : ∀ sc, .signedChoke sc ∈ n.verifiedQ → sc.choke.height ≠ n.st.height ∨ sc.choke.round ≤ n.st.round
  form : ∀ m ∈ n.verifiedQ, m.isRichStatus = false ∧ m ≠ .stop
  raw : ∀ m e cut, x = .arm (.raw m) e cut → m.isRichStatus = false ∧ m ≠ .stop
  resp : ∀ r ∈ n.respQ, r.blockHash = g.hash ∨ r.height < g.height

omit [DecidableEq T] in
theorem raw_run [DecidableEq T] {m : OverlordMsg T} {e : Env T} {s : State T} (h : m.isRichStatus = false ∧ m ≠ .stop) :
    ∃ k, m.getHeight? = some k ∧ ((s.height < k ∧ runArm (.raw m) e ⟨s, []⟩ = (.ok true, ⟨s, [.toVerified m]⟩)) ∨
      (s.height = k ∧ runArm (.raw m) e ⟨s, []⟩ = (.ok true, ⟨s, [.spawnVerify m s.authority]⟩)) ∨
      (k < s.height ∧ runArm (.raw m) e ⟨s, []⟩ = (.ok true, ⟨s, []⟩))) := by
  obtain ⟨r1, r2⟩ := h
  have hh : ∃ k, m.getHeight? = some k := by
    cases m with
    | richStatus => simp [OverlordMsg.isRichStatus] at r1
    | stop => exact absurd rfl r2
    | _ => exact ⟨_, rfl⟩
  obtain ⟨k, hk⟩ := hh
  refine ⟨k, hk, ?_⟩
  rcases Nat.lt_trichotomy s.height k with h | h | h
  · exact .inl ⟨h, by simp [runArm, r1, hk, bind, M.bind, M.get, h, M.emit, pure, M.pure]⟩
  · have hnl : ¬ s.height < k := by omega
    exact .inr (.inl ⟨h, by simp [runArm, r1, hk, bind, M.bind, M.get, hnl, h, M.emit, pure, M.pure]⟩)
  · have hnl : ¬ s.height < k := by omega
    have hne : ¬ s.height = k := by omega
    exact .inr (.inr ⟨h, by simp [runArm, r1, hk, bind, M.bind, M.get, hnl, hne, M.emit, pure, M.pure]⟩)

/-- An early message of a live node is cached when it is taken up. -/
theorem cached {g : Nat → GoodRound T} {K k j : Nat} (hp : Plan g K) {n : NodeSys T} {x : NAct T} {e : Env T} {y : Arm T} {cut : Option Nat} {R : Nat → OverlordMsg T → Prop}
    (hh : Here (g k) n x) (hx : x = .arm y e cut) (hkj : k < j) (hjK : j < K) {m : OverlordMsg T}
    (hgood : (∃ sp, m = .signedProposal sp ∧ IsProp (g j) sp) ∨ ∃ ty qc, m = .aggregatedVote qc ∧ GoodQc (g j) ty qc)
    (hex : Expected g k R m j)
    (hprop : ∀ sp old, m = .signedProposal sp → n.st.proposals.get (g j).height (g j).round = .ok old → old = sp) :
    Early.InCache (next e (.verified m) n.st) m := by
  have hlt := Plan.lt hp hkj
  have hrd : (g j).round = 0 := by
    cases j with
    | zero => omega
    | succ j => exact (hp.first j).1
  rcases hgood with ⟨sp, rfl, p1, p2, p3, p4, p5, p6⟩ | ⟨ty, qc, rfl, q1, q2, q3, q4⟩
  · rcases hex with ⟨sv, h, _⟩ | ⟨_, h2, h3⟩
    · cases h
    refine proposal_cached hh.wrap hh.power ?_ ?_ ?_ ?_
    · rw [p1, p2, hrd]
      refine ⟨by rw [hh.height]; exact hlt, by rw [hh.height]; omega, by omega⟩
    · rw [hh.authority, p6]
      exact (update_contains _ _).2 ((hp.ok k (by omega)).members _ (by rw [hp.live k, ← hp.live j]; exact (hp.ok j (by omega)).leads))
    · rw [hh.authority, hh.mode _ _ _ hx, p1, p2, p6]
      exact h3 ⟨sp, rfl⟩ k (Nat.le_refl _) hkj
    · rw [p1, p2]
      exact fun old ho => hprop sp old rfl ho
  · rcases hex with ⟨sv, h, _⟩ | ⟨_, h2, h3⟩
    · cases h
    refine certificate_cached hh.wrap hh.power ⟨?_, ?_, ?_⟩
    · rw [hh.height, q1]; exact hlt
    · rw [hh.height, q1]; omega
    · rw [q2, hrd]; omega

theorem Side.step {g : Nat → GoodRound T} {K k : Nat} (hp : Plan g K) {a : Address} {R R' : Nat → OverlordMsg T → Prop}
    {L : List (Effect T)} {n n' : NodeSys T} {x : NAct T} {eff : List (Effect T)}
    (h : Side g K k R L n) (hr : Ahd g K k R R' x) (hh : Here (g k) n x)
    (hone : ∀ j, k < j → j < K → ∀ sp sp', R j (.signedProposal sp) → R j (.signedProposal sp') → sp = sp') (hu : Undisturbed x)
    (hnc : ∀ e cut, x = .arm .event e cut → ∀ y q, n.stQ ≠ .commit y :: q)
    (hx : n.act a x = some n') (hlog : n'.log = n.log ++ eff) : Side g K k R' (L ++ eff) n' ∧ n'.st.height = (g k).height := by
  have hH := hh.height
  have lift : ∀ {m j}, Expected g k R m j → Expected g k R' m j := fun h => h.imp id fun ⟨h1, h2⟩ => ⟨hr.grow _ _ h1, h2⟩
  rcases act_arm hu hx with ⟨y, e, i, n1, rfl, ht, rfl⟩ | ⟨h1, h2, h3, h4, h5⟩
  · have hn1 : n1.log = n.log ∧ (∀ m ∈ n1.verifiedQ, m ∈ n.verifiedQ) ∧ n1.verifying = n.verifying ∧ (∀ m ∈ n.verifiedQ, m ∈ n1.verifiedQ ∨ i = .verified m) ∧
        ∀ m, i = .verified m → m ∈ n.verifiedQ := by
      unfold NodeSys.take at ht
      cases y with
      | raw m => cases ht; exact ⟨rfl, fun _ h => h, rfl, fun _ h => .inl h, by simp⟩
      | event => dsimp only at ht; split at ht <;> cases ht; exact ⟨rfl, fun _ h => h, rfl, fun _ h => .inl h, by simp⟩
      | resp => dsimp only at ht; split at ht <;> cases ht; exact ⟨rfl, fun _ h => h, rfl, fun _ h => .inl h, by simp⟩
      | verified =>
        dsimp only at ht
        split at ht <;> cases ht
        rename_i hv
        refine ⟨rfl, fun m hm => by rw [hv]; exact List.mem_cons.2 (.inr hm), rfl, fun m hm => ?_, fun m hm => ?_⟩
        · rw [hv] at hm
          rcases List.mem_cons.1 hm with rfl | hm
          · exact .inr rfl
          · exact .inl hm
        · cases hm
          rw [hv]; simp
    have heff : eff = effects e i n.st := by
      have : n1.log ++ effects e i n.st = n.log ++ eff := hlog
      rw [hn1.1] at this
      exact (List.append_cancel_left this).symm
    subst heff
    have hi : i ≠ .start ∧ (∀ st, i ≠ .verified (.richStatus st)) ∧ (∀ z, i ≠ .event (.commit z)) ∧
        (∀ m, i = .raw m → y = .raw m) ∧ (∀ r, i = .resp r → r ∈ n.respQ) ∧ (∀ m, y = .raw m → i = .raw m) := by
      unfold NodeSys.take at ht
      cases y with
      | raw m => cases ht; exact ⟨by simp, by simp, by simp, fun m h => by cases h; rfl, by simp, fun m h => by cases h; rfl⟩
      | event =>
        dsimp only at ht
        split at ht <;> cases ht
        rename_i hq
        refine ⟨by simp, by simp, fun z hz => ?_, by simp, by simp, by simp⟩
        cases hz
        exact hnc e none rfl _ _ hq
      | resp =>
        dsimp only at ht
        split at ht <;> cases ht
        rename_i hq
        refine ⟨by simp, by simp, by simp, by simp, fun r hr => ?_, by simp⟩
        cases hr
        rw [hq]; simp
      | verified =>
        dsimp only at ht
        split at ht <;> cases ht
        rename_i hv
        refine ⟨by simp, fun st hst => ?_, by simp, by simp, by simp, by simp⟩
        cases hst
        have := (hh.form _ (by rw [hv]; exact List.mem_cons.2 (.inl rfl))).1
        cases this
    obtain ⟨i1, i2, i3, i4, i6, i7⟩ := hi
    have i5 : ∀ m, i = .raw m → m.isRichStatus = false ∧ m ≠ .stop := fun m hm => hh.raw m e none (by rw [i4 m hm])
    have hht : (next e i n.st).height = n.st.height := height_same i1 i2 i3
    obtain ⟨s1, s2⟩ := sends_here (e := e) (s := n.st) i1 i2
    have hq : ∀ m, .toVerified m ∈ effects e i n.st → i = .raw m := by
      intro m hm
      by_cases hr : ∃ m', i = .raw m'
      · obtain ⟨m', rfl⟩ := hr
        obtain ⟨k', _, ⟨_, hrun⟩ | ⟨_, hrun⟩ | ⟨_, hrun⟩⟩ := raw_run (e := e) (s := n.st) (i5 m' rfl)
        all_goals
          unfold effects at hm
          rw [hrun] at hm
          simp at hm
        rw [hm]
      · have := (arm_auth_quiet (e := e) (s := n.st) (i := i) (by
          rintro (h | h | ⟨st, h⟩ | ⟨z, h⟩)
          exacts [i1 h, hr h, i2 _ h, i3 _ h])).fwd m hm
        exact this.elim
    have hsv : ∀ m au, .spawnVerify m au ∈ effects e i n.st → ∀ h, m.getHeight? = some h → h ≤ (g k).height := by
      intro m au hm
      by_cases hr : ∃ m', i = .raw m'
      · obtain ⟨m', rfl⟩ := hr
        obtain ⟨k', hk, ⟨_, hrun⟩ | ⟨h2, hrun⟩ | ⟨_, hrun⟩⟩ := raw_run (e := e) (s := n.st) (i5 m' rfl)
        all_goals
          unfold effects at hm
          rw [hrun] at hm
          simp at hm
        intro h hh
        rw [hm.1, hk] at hh
        cases hh
        omega
      · have := (arm_auth_quiet (e := e) (s := n.st) (i := i) (by
          rintro (h | h | ⟨st, h⟩ | ⟨z, h⟩)
          exacts [i1 h, hr h, i2 _ h, i3 _ h])).spawn m au hm
        intro h hh
        rw [this.1] at hh
        cases hh
        exact Nat.le_of_eq (hht.trans hH)
    refine ⟨⟨?_, ?_, ?_, ?_, ?_, ?_, ?_, arm_filed h.filed, ?_⟩, hht.trans hH⟩
    · intro j hj m hm
      rcases List.mem_append.1 hm with hm | hm
      · exact h.mute1 j hj m hm
      · rw [s1 m hm, hH]
        have := Plan.lt hp hj
        simp only [ne_eq, Option.some.injEq]
        omega
    · intro j hj d m hm
      rcases List.mem_append.1 hm with hm | hm
      · exact h.mute2 j hj d m hm
      · rw [s2 d m hm, hH]
        have := Plan.lt hp hj
        simp only [ne_eq, Option.some.injEq]
        omega
    · intro j hj hjK
      have : (next e i n.st).isFullTransaction.get? (g j).hash = n.st.isFullTransaction.get? (g j).hash := by
        refine full_same (fun r hr hhr => ?_) i1
        rcases hh.resp r (i6 r hr) with h1 | h1
        · rw [h1]
          intro h2
          have := hp.fresh _ _ h2
          omega
        · omega
      exact this.trans (h.full j hj hjK)
    · intro m hm j hj hjK hmh
      rcases List.mem_append.1 hm with hm | hm
      · exact lift (h.soon m (hn1.2.1 m hm) j hj hjK hmh)
      · obtain ⟨z, hz, hzm⟩ := List.mem_filterMap.1 hm
        cases z with
        | toVerified m' =>
          cases hzm
          have := i4 _ (hq _ hz)
          subst this
          exact hr.raw m e none rfl j hj hjK hmh
        | _ => cases hzm
    · intro j hj hjK sp hsp
      have hlt := Plan.lt hp hj
      have hsp : (next e i n.st).proposals.get (g j).height (g j).round = .ok sp := hsp
      rcases proposal_origin i1 h.filed (by rw [hht, hH]; exact hlt) hsp with h1 | h1
      · exact hr.grow _ _ (h.props j hj hjK sp h1)
      · subst h1
        have h2 := ((arm_filed (e := e) (i := .verified (.signedProposal sp)) h.filed).props.get hsp).1
        rcases h.soon _ (hn1.2.2.2.2 _ rfl) j hj hjK (congrArg some h2) with ⟨sv, h3, _⟩ | ⟨h3, _⟩
        · cases h3
        · exact hr.grow _ _ h3
    · intro j hj hjK m hm
      have hlt := Plan.lt hp hj
      have hch : ∀ sc, i = .verified (.signedChoke sc) → sc.choke.height ≠ n.st.height ∨ sc.choke.round ≤ n.st.round :=
        fun sc hsc => hh.choke sc (hn1.2.2.2.2 _ hsc)
      rcases hr.fresh j m hm with h1 | ⟨h1, e', h2⟩
      · obtain ⟨m', k1, k2, k3⟩ := h.kept j hj hjK m h1
        have incache : ∀ m1, R j m1 → Stands m1 m → Early.InCache n.st m1 → ∃ m2, R' j m2 ∧ Stands m2 m ∧ (m2 ∈ (n1.took none (runArm i e ⟨n.st, []⟩)).verifiedQ ∨ Early.InCache (next e i n.st) m2) := by
          intro m1 hm1 hcv hin
          have hhg : Early.hgt m1 = (g j).height := by
            have := hr.height j m1 hm1
            rw [inCache_height hin] at this
            exact Option.some.inj this
          rcases kept_arm (e := e) i1 hch hin (by rw [hht, hH, hhg]; exact hlt) with h3 | ⟨q, qc, rfl, h4, h5, h6⟩
          · exact ⟨m1, hr.grow _ _ hm1, hcv, .inr h3⟩
          · refine ⟨.aggregatedVote qc, hr.grow _ _ ?_, Stands.trans (.inr ⟨qc, q, rfl, rfl, h4.2.2⟩) hcv, .inr h6⟩
            have h7 : qc.height = (g j).height := h4.1.trans hhg
            rcases h.soon _ (hn1.2.2.2.2 _ h5) j hj hjK (congrArg some h7) with ⟨sv, h8, _⟩ | ⟨h8, _⟩
            · cases h8
            · exact h8
        rcases k3 with k3 | k3
        · rcases hn1.2.2.2.1 m' k3 with h3 | h3
          · exact ⟨m', hr.grow _ _ k1, k2, .inl (List.mem_append.2 (.inl h3))⟩
          · subst h3
            refine ⟨m', hr.grow _ _ k1, k2, .inr ?_⟩
            refine cached hp hh rfl hj hjK (hr.good j hj hjK m' k1) (h.soon m' k3 j hj hjK (hr.height j m' k1)) ?_
            rintro sp old rfl ho
            exact hone j hj hjK _ _ (h.props j hj hjK old ho) k1
        · exact incache m' k1 k2 k3
      · cases h2
        refine ⟨m, hm, .inl rfl, .inl (List.mem_append.2 (.inr (List.mem_filterMap.2 ⟨.toVerified m, ?_, rfl⟩)))⟩
        have := i7 m rfl
        subst this
        obtain ⟨k', hk, h3⟩ := raw_run (e := e) (s := n.st) (i5 m rfl)
        rw [hk] at h1
        cases h1
        rcases h3 with ⟨_, hrun⟩ | ⟨h4, _⟩ | ⟨h4, _⟩
        · show _ ∈ (runArm (.raw m) e ⟨n.st, []⟩).2.log
          rw [hrun]; simp
        · omega
        · omega
    · intro y hy h' hh
      rcases List.mem_append.1 hy with hy | hy
      · rw [hn1.2.2.1] at hy
        exact h.low2 y hy h' hh
      · obtain ⟨z, hz, hzm⟩ := List.mem_filterMap.1 hy
        cases z with
        | spawnVerify m' au =>
          cases hzm
          exact hsv m' au hz h' hh
        | _ => cases hzm
    · rw [blocksOf_append, blocksOf_nil (no_commit i1 i3), List.append_nil]
      exact h.blocks
  · have heff : eff = [] := by
      rw [h2] at hlog
      have : n.log ++ [] = n.log ++ eff := by rw [List.append_nil]; exact hlog
      exact (List.append_cancel_left this).symm
    subst heff
    rw [List.append_nil, h3]
    refine ⟨⟨h.mute1, h.mute2, by rw [h3]; exact h.full, fun m hm j hj hjK hmh => ?_, fun j hj hjK sp hsp => ?_, fun j hj hjK m hm => ?_, fun y hy => h.low2 y (h5 y hy),
      by rw [h3]; exact h.filed, h.blocks⟩, hH⟩
    · rcases h4 m hm with h6 | ⟨au, h6⟩
      · exact lift (h.soon m h6 j hj hjK hmh)
      · have := h.low2 _ h6 _ hmh
        have := Plan.lt hp hj
        omega
    · rw [h3] at hsp
      exact hr.grow _ _ (h.props j hj hjK sp hsp)
    · rcases hr.fresh j m hm with h6 | ⟨_, e', h6⟩
      · obtain ⟨m', k1, k2, k3⟩ := h.kept j hj hjK m h6
        refine ⟨m', hr.grow _ _ k1, k2, k3.imp (fun h7 => ?_) (fun h7 => by rw [h3]; exact h7)⟩
        exact kept_verified hu h1 hx h7
      · exact absurd h6 (h1 _ _ _)

/-! ### Between two heights -/

/-- A step that is not one of the voting state machine or of the timer's thresholds, and takes up no event, does to the node as it will be
what it does to the node as it is. -/
theorem virt_act {a : Address} {n n' : NodeSys T} {x : NAct T} {h : Nat} {st : Status} {old new : List SMRTrigger} {t : SMRTrigger} (hu : Undisturbed x)
    (hsm : x ≠ .smr) (hev : ∀ e cut, x ≠ .arm .event e cut) (ht : n.sys.trigQ = old ++ t :: new) (hx : n.act a x = some n') :
    ∃ new', n'.sys.trigQ = old ++ t :: new' ∧ n'.stQ = n.stQ ∧ n'.sys.smr = n.sys.smr ∧ (virt h st new n).act a x = some (virt h st new' n') := by
  unfold NodeSys.act at hx ⊢
  have hd : (virt h st new n).down = n.down := rfl
  rw [hd]
  cases x with
  | start p e cut => exact hu.elim
  | crash => exact hu.elim
  | fire i => exact hu.elim
  | smr => exact absurd rfl hsm
  | arm y e cut =>
    have : cut = none := hu
    subst this
    dsimp only at hx ⊢
    split at hx
    · cases hx
    · rename_i hdn
      rw [if_neg hdn]
      cases y with
      | event => exact absurd rfl (hev e none)
      | raw m =>
        simp only [NodeSys.take, Option.some.injEq] at hx ⊢
        subst hx
        refine ⟨new ++ trigsOf (runArm (.raw m) e ⟨n.st, []⟩).2.log, ?_, rfl, rfl, rfl⟩
        show n.sys.trigQ ++ _ = _
        rw [ht]; simp [cutTo]
      | resp =>
        have hq : (virt h st new n).respQ = n.respQ := rfl
        simp only [NodeSys.take] at hx ⊢
        rw [hq]
        cases hr : n.respQ with
        | nil => rw [hr] at hx; cases hx
        | cons r rs =>
          rw [hr] at hx
          simp only [Option.some.injEq] at hx ⊢
          subst hx
          refine ⟨new ++ trigsOf (runArm (.resp r) e ⟨n.st, []⟩).2.log, ?_, rfl, rfl, rfl⟩
          show n.sys.trigQ ++ _ = _
          rw [ht]; simp [cutTo]
      | verified =>
        have hq : (virt h st new n).verifiedQ = n.verifiedQ := rfl
        simp only [NodeSys.take] at hx ⊢
        rw [hq]
        cases hr : n.verifiedQ with
        | nil => rw [hr] at hx; cases hx
        | cons m ms =>
          rw [hr] at hx
          simp only [Option.some.injEq] at hx ⊢
          subst hx
          refine ⟨new ++ trigsOf (runArm (.verified m) e ⟨n.st, []⟩).2.log, ?_, rfl, rfl, rfl⟩
          show n.sys.trigQ ++ _ = _
          rw [ht]; simp [cutTo]
  | verifyDone c i =>
    dsimp only at hx ⊢
    have hq : (virt h st new n).verifying = n.verifying := rfl
    rw [hq]
    split at hx
    · cases hx
    · rename_i hdn
      rw [if_neg hdn]
      split at hx
      · cases hx
      · rename_i m au hi
        cases hx
        exact ⟨new, ht, rfl, rfl, rfl⟩
  | checkDone i ok =>
    dsimp only at hx ⊢
    have hq : (virt h st new n).checking = n.checking := rfl
    rw [hq]
    split at hx
    · cases hx
    · rename_i hdn
      rw [if_neg hdn]
      split at hx
      · cases hx
      · rename_i m au b1 b2 hi
        cases hx
        exact ⟨new, ht, rfl, rfl, rfl⟩
  | set =>
    dsimp only at hx ⊢
    split at hx
    · cases hx
    · rename_i hdn
      rw [if_neg hdn]
      obtain ⟨sys, h1, rfl⟩ := Option.map_eq_some_iff.1 hx
      unfold TimerSys.act at h1 ⊢
      dsimp only at h1 ⊢
      have hq : (virt h st new n).sys.evtQ = n.sys.evtQ := rfl
      rw [hq]
      split at h1
      · cases h1
      · cases h1
      · cases h1
        exact ⟨new, ht, rfl, rfl, rfl⟩
  | expire i =>
    dsimp only at hx ⊢
    split at hx
    · cases hx
    · rename_i hdn
      rw [if_neg hdn]
      obtain ⟨sys, h1, rfl⟩ := Option.map_eq_some_iff.1 hx
      unfold TimerSys.act at h1 ⊢
      dsimp only at h1 ⊢
      have hq : (virt h st new n).sys.armed = n.sys.armed := rfl
      rw [hq]
      split at h1
      · cases h1
      · cases h1
        exact ⟨new, ht, rfl, rfl, rfl⟩

/-- What `GoodStep` requires, except of the verification of signatures. -/
def Calm (g : GoodRound T) : NAct T → Prop
  | .arm (.raw m) e cut => GoodEnv g e ∧ cut = none ∧ m.isRichStatus = false ∧ m ≠ .stop
  | .arm _ e cut => GoodEnv g e ∧ cut = none
  | .checkDone _ ok => ok = true
  | .fire _ => False
  | .crash => False
  | .start _ _ _ => False
  | _ => True

theorem calm_of {g : GoodRound T} {N0 N : NetSys T} {a : Address} {x : NAct T} (h : GoodStep g N0 N a x) : Calm g x := by
  cases x with
  | arm y e cut => cases y <;> exact h
  | verifyDone => trivial
  | _ => exact h

section
variable {g : GoodRound T} {P : Option (SignedProposal T)} {q : VoteType → Prop} {a : Address} {D D' : OverlordMsg T → Prop} {L : List (Effect T)} {n n' : NodeSys T} {x : NAct T}

/-- What a node needs to know about a verification that ends. -/
def VerifyOk (g : GoodRound T) (P : Option (SignedProposal T)) (q : VoteType → Prop) (D : OverlordMsg T → Prop) (s : State T)
    (l : List (OverlordMsg T × Authority)) (x : NAct T) : Prop :=
  ∀ c i, x = .verifyDone c i → ∀ m au, l[i]? = some (m, au) → m.getHeight? = some g.height →
    (D m → verifyTask c m au = true) ∧ (verifyTask c m au = true → Good.MsgOk g P q s m)

/-- The steps at which the node neither votes nor moves. -/
theorem inner_step (hg : g.Ok) (h : NodeIn g P q a D L n) (hP : ∀ sp, P = some sp → IsProp g sp)
    (hD : ∀ m, D m → m.getHeight? = some g.height ∧ msgRound m = g.round ∧ OfLive g m)
    (hv : VerifyOk g P q D n.st n.verifying x)
    (hD' : ∀ m, D' m → D m ∨ m.getHeight? = some g.height ∧ ∃ e, x = .arm (.raw m) e none)
    (hs : Calm g x) (hsm : x ≠ .smr) (hev : ∀ e cut, x ≠ .arm .event e cut) (hx : n.act a x = some n') :
    ∃ eff, n'.log = n.log ++ eff ∧ NodeIn g P (newQ g q eff) a D' (L ++ eff) n' := by
  have down : (∀ m e, x ≠ .arm (.raw m) e none) → ∀ m, D' m → D m := by
    intro h1 m hm
    rcases hD' m hm with h2 | ⟨_, e, h2⟩
    · exact h2
    · exact absurd h2 (h1 m e)
  have fin : (∀ m e, x ≠ .arm (.raw m) e none) → (∃ eff, n'.log = n.log ++ eff ∧ NodeIn g P (newQ g q eff) a D (L ++ eff) n') →
      ∃ eff, n'.log = n.log ++ eff ∧ NodeIn g P (newQ g q eff) a D' (L ++ eff) n' := by
    rintro h1 ⟨eff, h2, h3⟩
    exact ⟨eff, h2, h3.less (down h1)⟩
  have sil : (∀ m e, x ≠ .arm (.raw m) e none) → n'.log = n.log ∧ NodeIn g P q a D L n' →
      ∃ eff, n'.log = n.log ++ eff ∧ NodeIn g P (newQ g q eff) a D' (L ++ eff) n' := by
    rintro h1 ⟨h2, h3⟩
    refine ⟨[], by rw [h2, List.append_nil], ?_⟩
    rw [List.append_nil]
    exact (h3.mono (fun _ h => h) (fun _ h => .inl h) (fun _ => rfl)).less (down h1)
  cases x with
  | arm y e cut =>
    cases y with
    | raw m =>
      obtain ⟨he, rfl, h1, h2⟩ := hs
      obtain ⟨⟨eff, h3, h4, h5⟩, h6⟩ := h.raw h1 h2 hx
      refine ⟨eff, h3, ?_⟩
      refine ((h6 _ (h.logged h4 h5)).mono (fun _ h => h) (fun _ h => .inl h) (fun _ => rfl)).less fun m' hm => ?_
      rcases hD' m' hm with h7 | ⟨h7, e', h8⟩
      · exact .inl h7
      · cases h8
        exact .inr ⟨rfl, h7⟩
    | event => exact absurd rfl (hev e cut)
    | resp => obtain ⟨he, rfl⟩ := hs; exact fin (by simp) (h.resp hg he hx)
    | verified => obtain ⟨he, rfl⟩ := hs; exact fin (by simp) (h.verified hg he hP hD hx)
  | verifyDone c i => exact sil (by simp) (h.verifyDone (fun m hm => (hD m hm).1) (hv c i rfl) hx)
  | checkDone i ok =>
    have : ok = true := hs
    subst this
    exact sil (by simp) (h.checkDone hx)
  | smr => exact absurd rfl hsm
  | set => exact sil (by simp) (h.set hx)
  | expire i => exact sil (by simp) (h.expire hx)
  | fire i => exact hs.elim
  | crash => exact hs.elim
  | start p e cut => exact hs.elim

theorem calm_undisturbed (h : Calm g x) : Undisturbed x := by
  cases x with
  | arm y e cut =>
    cases y with
    | raw m => exact h.2.1
    | _ => exact h.2
  | fire => exact h
  | crash => exact h
  | start => exact h
  | _ => trivial

variable {g0 : GoodRound T} {old new : List SMRTrigger} {st : Status}

/-- A step between two heights. -/
theorem between_step (hg : g.Ok) (hlt : g0.height < g.height) (h : Between g0 g P q a D L n old new st) (hP : ∀ sp, P = some sp → IsProp g sp)
    (hD : ∀ m, D m → m.getHeight? = some g.height ∧ msgRound m = g.round ∧ OfLive g m)
    (hv : VerifyOk g P q D n.st n.verifying x)
    (hD' : ∀ m, D' m → D m ∨ m.getHeight? = some g.height ∧ ∃ e, x = .arm (.raw m) e none)
    (hs : Calm g x) (hx : n.act a x = some n') :
    ∃ eff, n'.log = n.log ++ eff ∧
      ((∃ old' new', Between g0 g P (newQ g q eff) a D' (L ++ eff) n' old' new' st) ∨ NodeIn g P (newQ g q eff) a D' (L ++ eff) n' ∧ Last n') := by
  have hev : ∀ e cut, x ≠ .arm .event e cut := by
    rintro e cut rfl
    unfold NodeSys.act at hx
    rw [h.up] at hx
    simp only [Bool.false_eq_true, if_false, NodeSys.take, h.ev] at hx
    cases hx
  by_cases hsm : x = .smr
  · subst hsm
    have hDD : ∀ m, D' m → D m := by
      intro m hm
      rcases hD' m hm with h1 | ⟨_, e, h1⟩
      · exact h1
      · cases h1
    have hmono : ∀ {n1 : NodeSys T}, NodeIn g P q a D L n1 → NodeIn g P (newQ g q []) a D' L n1 := fun h1 =>
      (h1.mono (fun _ h => h) (fun _ h => .inl h) (fun _ => rfl)).less hDD
    refine ⟨[], ?_, ?_⟩
    · rw [List.append_nil]
      rcases act_arm (x := .smr) trivial hx with ⟨y, e, i, n1, h1, _⟩ | ⟨_, h1, _⟩
      · cases h1
      · exact h1
    rw [List.append_nil]
    unfold NodeSys.act at hx
    rw [h.up] at hx
    simp only [Bool.false_eq_true, if_false] at hx
    cases old with
    | cons t ts =>
      have htq : n.sys.trigQ = t :: (ts ++ tN st g.height :: new) := h.trig
      have hid := smr_commit_idle h.smrH h.smrR h.step (h.olds t (by simp))
      simp only [TimerSys.act, htq, hid, Smr.idle, Option.some.injEq, List.map_nil, List.append_nil, List.filterMap_nil] at hx
      subst hx
      exact .inl ⟨ts, new, rfl, h.ev, rfl, h.smrH, h.smrR, h.step, h.status, fun t ht => h.olds t (List.mem_cons.2 (.inr ht)), hmono (by
        have := h.inn
        unfold virt at this ⊢
        rwa [h.up] at this)⟩
    | nil =>
      have htq : n.sys.trigQ = tN st g.height :: new := h.trig
      have hnh : n.sys.smr.onTrigger (tN st g.height) = ⟨n.sys.smr.gotoNewHeight g.height, [.both (nri g.height st)], .ok⟩ := by
        have : ¬ g.height ≤ n.sys.smr.height := by rw [h.smrH]; omega
        simp [Smr.onTrigger, tN, stTrigger, Smr.handleNewHeight, Status.toSMR, h.status, this, nri, Smr.gotoNewHeight]
      simp only [TimerSys.act, htq, hnh, Option.some.injEq, h.ev, List.nil_append, List.filterMap_cons, Out.toState, List.filterMap_nil] at hx
      subst hx
      refine .inr ⟨?_, last_of_none ?_⟩
      · have := (hmono h.inn).timer { n.sys with smr := n.sys.smr.gotoNewHeight g.height, trigQ := new, evtQ := n.sys.evtQ ++ [.both (nri g.height st)].map Out.event } rfl rfl
        unfold virt at this
        rwa [h.up] at this
      · intro ev hev
        rw [List.mem_singleton] at hev
        subst hev
        exact id
  · obtain ⟨new', h1, h2, h3, h4⟩ := virt_act (h := g.height) (st := st) (calm_undisturbed hs) hsm hev h.trig hx
    obtain ⟨eff, h5, h6⟩ := inner_step (D' := D') hg h.inn hP hD hv hD' hs hsm hev h4
    refine ⟨eff, h5, .inl ⟨old, new', h1, h2.trans h.ev, h6.core.up, by rw [h3]; exact h.smrH, by rw [h3]; exact h.smrR, by rw [h3]; exact h.step, h.status, h.olds, h6⟩⟩

end

end Overlord.Chain
