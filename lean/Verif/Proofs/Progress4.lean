import Verif.Proofs.Progress3

/-! The chokes of the live validators of a round arrive and end it (used for C54). -/

set_option linter.unusedSimpArgs false
set_option linter.unusedVariables false
set_option linter.unusedSectionVars false

namespace Overlord.Pace
open Spec M Rdy

variable {T : Type} [ContentCodec T] [DecidableEq T]

/-- The senders of the chokes held for a round. -/
def senders (s : State T) (r : Nat) : List Address := (s.chokes.held r).map SignedChoke.address

theorem senders_insert {c : ChokeCollector} (hok : ChokesOk c) (r : Nat) (sc : SignedChoke) (r' : Nat) (x : Address)
    (h : x ∈ (c.held r').map SignedChoke.address) : x ∈ ((c.insert r sc).held r').map SignedChoke.address := by
  obtain ⟨y, h1, rfl⟩ := List.mem_map.1 h
  by_cases hy : r' = r ∧ y.address = sc.address
  · refine List.mem_map.2 ⟨sc, (held_insert hok r sc r' sc).2 (.inl ⟨hy.1, rfl⟩), hy.2.symm⟩
  · exact List.mem_map.2 ⟨y, (held_insert hok r sc r' y).2 (.inr ⟨h1, hy⟩), rfl⟩

theorem arm_senders {e : Env T} {s : State T} {i : Input T} (hi : i ≠ .start) (hok : ChokesOk s.chokes) (r : Nat) (x : Address)
    (hx : x ∈ senders s r) : s.height < (runArm i e ⟨s, []⟩).2.st.height ∨ x ∈ senders (runArm i e ⟨s, []⟩).2.st r := by
  have := arm_state_inv (e := e) (i := i) (s := s) (P := fun s' => ChokesOk s'.chokes ∧ s.height ≤ s'.height ∧ (s.height < s'.height ∨ x ∈ senders s' r))
    ⟨hok, Nat.le_refl _, .inr hx⟩ (by
      intro s1 eff s2 ⟨h1, h2, h3⟩ hm
      have hle := micro_height hi hm
      refine ⟨chokesOk_micro h1 hm, Nat.le_trans h2 hle, ?_⟩
      rcases h3 with h3 | h3
      · exact .inl (Nat.lt_of_lt_of_le h3 hle)
      · cases hm with
        | recvChoke => exact .inr (senders_insert h1 _ _ _ _ h3)
        | ownChoke => exact .inr (senders_insert h1 _ _ _ _ h3)
        | chokeQuorum => exact .inr h3
        | recvChokeQc => exact .inr h3
        | adopt st _ _ hlt => left; show s.height < st.height; omega
        | _ => exact .inr h3)
  exact this.2.2

/-- The check for a choke quorum. -/
theorem check_all {e : Env T} (hagg : ∀ l l', (e.crypto.aggregate l l').isSome = true) {s : State T} {l : List (Effect T)} (hok : ChokesOk s.chokes) :
    wp checkChokeAboveThreshold e ⟨s, l⟩
      (fun _ w => (∃ l', w.log = l ++ l') ∧ w.st.chokes.chokes = s.chokes.chokes ∧ (2 * s.authority.len < 3 * (s.chokes.held s.round).length →
        ∃ r', s.round ≤ r' ∧ (AMap.get? s.chokes.chokes r').isSome = true ∧
          .trigger (stTrigger .continueRound [] none (inc64 r') s.height) ∈ w.log))
      (fun _ w => (∃ l', w.log = l ++ l') ∧ w.st.chokes.chokes = s.chokes.chokes ∧ (2 * s.authority.len < 3 * (s.chokes.held s.round).length →
        ∃ r', s.round ≤ r' ∧ (AMap.get? s.chokes.chokes r').isSome = true ∧
          .trigger (stTrigger .continueRound [] none (inc64 r') s.height) ∈ w.log)) := by
  unfold checkChokeAboveThreshold
  rw [wp_bind, wp_get]
  dsimp only
  cases hmax : s.chokes.maxRoundAboveThreshold s.authority.len with
  | none =>
    refine ⟨⟨[], by simp⟩, rfl, fun hlt => ?_⟩
    exact absurd hlt (maxRound_none hmax _)
  | some r' =>
    obtain ⟨h1, h2⟩ := maxRound_some hok hmax
    wps [aggregateSignatures]
    refine ⟨fun hlt => ⟨⟨[], by simp⟩, trivial, fun hq => ?_⟩, fun hge => ⟨fun scs hscs => ⟨fun sig hsig => ?_, fun hn => ?_⟩, fun hn => ?_⟩⟩
    · have := h2 _ hq; omega
    · refine ⟨⟨_, rfl⟩, rfl, fun hq => ⟨r', by omega, ?_, by simp⟩⟩
      unfold ChokeCollector.getChokes at hscs
      cases hg : AMap.get? s.chokes.chokes r' with
      | none => rw [hg] at hscs; cases hscs
      | some _ => rfl
    · have := hagg (scs.map SignedChoke.signature) (scs.map SignedChoke.address); rw [hn] at this; cases this
    · exact absurd hn (NoPanic.chokes_some hmax)

/-- What taking up an order to ask for a new round does. -/
theorem brake_all (hE : Encodes T) {e : Env T} (he : Works e) (hagg : ∀ l l', (e.crypto.aggregate l l').isSome = true) {s : State T}
    (hok : ChokesOk s.chokes) {lr : Option Nat} (hl : LockStored s lr) :
    wp (handleBrake s.round lr) e ⟨s, []⟩
      (fun _ w => (∃ sc : SignedChoke, sc.choke = ⟨s.height, s.round, s.updateFrom⟩ ∧ sc.address = s.address ∧ .broadcast (.signedChoke sc) ∈ w.log) ∧
        s.address ∈ senders w.st s.round ∧ (2 * s.authority.len < 3 * (senders w.st s.round).length →
          ∃ r', s.round ≤ r' ∧ (AMap.get? w.st.chokes.chokes r').isSome = true ∧
            .trigger (stTrigger .continueRound [] none (inc64 r') s.height) ∈ w.log))
      (fun _ w => (∃ sc : SignedChoke, sc.choke = ⟨s.height, s.round, s.updateFrom⟩ ∧ sc.address = s.address ∧ .broadcast (.signedChoke sc) ∈ w.log) ∧
        s.address ∈ senders w.st s.round ∧ (2 * s.authority.len < 3 * (senders w.st s.round).length →
          ∃ r', s.round ≤ r' ∧ (AMap.get? w.st.chokes.chokes r').isSome = true ∧
            .trigger (stTrigger .continueRound [] none (inc64 r') s.height) ∈ w.log)) := by
  unfold handleBrake
  wps
  simp only [ne_eq, not_true_eq_false, false_implies, not_false_eq_true, true_implies, true_and]
  refine ⟨fun sig hsig => ?_, fun hn => ?_⟩
  swap
  · have := he.signs (e.crypto.hash (encHashChoke (Choke.toHash ⟨s.height, s.round, s.updateFrom⟩))); rw [hn] at this; cases this
  refine Carry.wp_saveLROk hE he.saves ?_ fun lock => ?_
  · exact hl
  unfold broadcast
  wps
  refine wp_mono (check_all hagg ?_) ?_ ?_
  · exact hok.insert _ _
  all_goals
    rintro _ ⟨st, lg⟩ ⟨⟨l', h1⟩, h2, h3⟩
    dsimp only at h1 h2 h3 ⊢
    have hh : ∀ r', senders st r' = ((s.chokes.insert s.round ⟨sig, ⟨s.height, s.round, s.updateFrom⟩, s.address⟩).held r').map SignedChoke.address := by
      intro r'; unfold senders; rw [held_eq, held_eq, h2]
    refine ⟨⟨⟨sig, ⟨s.height, s.round, s.updateFrom⟩, s.address⟩, rfl, rfl, by rw [h1]; simp⟩, ?_, ?_⟩
    · rw [hh]
      exact List.mem_map.2 ⟨_, (held_insert hok _ _ _ _).2 (.inl ⟨rfl, rfl⟩), rfl⟩
    · intro hq
      rw [hh, List.length_map] at hq
      rw [h2]
      exact h3 hq

theorem raw_choke {e : Env T} {s : State T} {sc : SignedChoke} (h : sc.choke.height = s.height) :
    .spawnVerify (.signedChoke sc) s.authority ∈ (runArm (.raw (.signedChoke sc)) e ⟨s, []⟩).2.log := by
  refine wp_post (P := fun w => .spawnVerify (.signedChoke sc) s.authority ∈ w.log) ?_
  unfold runArm
  simp only [OverlordMsg.isRichStatus, OverlordMsg.getHeight?, h, Bool.false_eq_true, if_false]
  wps
  simp

/-- A choke of the round is stored. -/
theorem recv_all {e : Env T} {s : State T} {sc : SignedChoke} (hp : s.consensusPower = true) (hok : ChokesOk s.chokes) (h1 : sc.choke.height = s.height) (h2 : sc.choke.round = s.round) :
    sc.address ∈ senders (runArm (.verified (.signedChoke sc)) e ⟨s, []⟩).2.st s.round := by
  refine wp_post (P := fun w => sc.address ∈ senders w.st s.round) ?_
  unfold runArm handleMsg handleSignedChoke
  wps
  have key : wp checkChokeAboveThreshold e ⟨{ s with chokes := s.chokes.insert sc.choke.round sc }, []⟩
      (fun _ w => sc.address ∈ senders w.st s.round) (fun _ w => sc.address ∈ senders w.st s.round) := by
    have h0 : sc.address ∈ senders { s with chokes := s.chokes.insert sc.choke.round sc } s.round :=
      List.mem_map.2 ⟨sc, (held_insert hok _ _ _ _).2 (.inl ⟨h2.symm, rfl⟩), rfl⟩
    unfold checkChokeAboveThreshold
    wps
    split
    · exact h0
    · wps [aggregateSignatures]
      exact ⟨fun _ => h0, fun _ => ⟨fun _ _ => ⟨fun _ _ => h0, fun _ => h0⟩, fun _ => h0⟩⟩
  simp only [hp, h1, h2, Bool.true_eq_false, false_and, false_implies, not_false_eq_true, true_implies, true_and, ne_eq, not_true_eq_false, Nat.lt_irrefl, gt_iff_lt] at key ⊢
  exact wp_mono key (fun _ _ h => by simpa using h) (fun _ _ h => by simpa using h)

section
variable {f : Hash → Nat × T} {lists : Nat → List Node} {correct : Address → Bool} {mode : LeaderMode} {leader : Nat → Nat → Address}

namespace Halted
variable {σ : NetRun T} {n0 : Nat} {a : Address} {k r : Nat}

/-- The node asks for a new round again and again, and never holds enough chokes. -/
theorem chokes (h : Halted f lists correct mode leader σ n0 a k r) {n : Nat} (hn : n0 ≤ n) :
    ∃ m sc, n ≤ m ∧ Clear σ a m ∧ σ.Broadcasts m a (.signedChoke sc) ∧ sc.choke.height = k ∧ sc.choke.round = r ∧ sc.address = a ∧
      a ∈ senders (σ.node (m + 1) a).st r ∧ ¬ 2 * (lists k).length < 3 * (senders (σ.node (m + 1) a).st r).length := by
  obtain ⟨m, lr, q, e, h1, h2, h3, h4, h5, h6, h7⟩ := h.brakes hn
  have hm : n0 ≤ m := by omega
  obtain ⟨hp1, hp2⟩ := h.pos hm
  have hr := h.clear_round hm h3
  have hd := h.served.up m hm
  have hf := h.facts hm
  obtain ⟨hw, hagg⟩ := h.served.works m _ _ _ hm h4
  have hst := ((hf.ready.gen.gen a h.cor).up hd).st
  have her : EReady f (Certified lists correct (σ.st m).votes) (σ.node m a).st (.brake k r lr) :=
    ((hf.ready.node a h.cor).up hd).2.ev (.brake k r lr) (by
      show _ ∈ (σ.node m a).stQ
      rw [h2]; exact List.mem_cons_self ..)
  have hls : LockStored (σ.node m a).st lr := by
    refine hf.ready.lock h.few h.cor hd hp2 ?_
    rw [show ((σ.st m).nodes a).st.height = k from hp1]
    exact her.2
  have hv := event_post (e := e) (ev := .brake k r lr) (s := (σ.node m a).st) (P := fun w =>
      (∃ sc : SignedChoke, sc.choke = ⟨(σ.node m a).st.height, (σ.node m a).st.round, (σ.node m a).st.updateFrom⟩ ∧
        sc.address = (σ.node m a).st.address ∧ .broadcast (.signedChoke sc) ∈ w.log) ∧
        (σ.node m a).st.address ∈ senders w.st (σ.node m a).st.round ∧
        (2 * (σ.node m a).st.authority.len < 3 * (senders w.st (σ.node m a).st.round).length →
          ∃ r', (σ.node m a).st.round ≤ r' ∧ (AMap.get? w.st.chokes.chokes r').isSome = true ∧
            .trigger (stTrigger .continueRound [] none (inc64 r') (σ.node m a).st.height) ∈ w.log)) hp2 hf.nt.run (by
    have := brake_all h.enc hw hagg hf.nt.ck hls
    unfold handleEvent
    wps
    refine ⟨fun h => absurd hp1.symm h, fun _ => ?_⟩
    have hr' : ((σ.st m).nodes a).st.round = r := hr
    rw [hr'] at this
    rw [hr]
    exact wp_mono this (fun _ _ o => o) (fun _ _ o => ⟨fun _ => o, fun _ => o⟩))
  rw [hr, hp1, ← h5] at hv
  obtain ⟨⟨sc, v1, v2, v3⟩, v4, v5⟩ := hv
  have haddr : (σ.node m a).st.address = a := hst.2
  refine ⟨m, sc, h1, h3, ?_, by rw [v1], by rw [v1], by rw [v2, haddr], by rw [haddr] at v4; exact v4, ?_⟩
  · unfold NetRun.Broadcasts doneSince
    rw [show ((σ.st (m + 1)).nodes a).log = _ from h6]
    unfold NetRun.node at v3 ⊢
    rw [List.drop_left]
    exact v3
  · intro hq
    have hau := hst.1.auth hp2
    rw [show ((σ.st m).nodes a).st.height = k from hp1] at hau
    obtain ⟨r', v6, v7, v8⟩ := v5 (by
      rw [show (σ.node m a).st.authority = _ from hau, update_len]; exact hq)
    have hsm := h.served.rounds (m + 1) r' (by omega) v7
    refine h.noCont (m := m + 1) (by omega) (t := stTrigger .continueRound [] none (inc64 r') k) ?_ rfl rfl rfl ?_
    · rw [h7]
      exact List.mem_append_right _ (mem_trigsOf.2 v8)
    · show r < inc64 r'
      unfold inc64 U64; omega

/-- Chokes held are not lost. -/
theorem senders_on (h : Halted f lists correct mode leader σ n0 a k r) {m : Nat} (hm : n0 ≤ m) {x : Address}
    (hx : x ∈ senders (σ.node m a).st r) : ∀ m', m ≤ m' → x ∈ senders (σ.node m' a).st r := by
  have : ∀ d, x ∈ senders (σ.node (m + d) a).st r := by
    intro d
    induction d with
    | zero => exact hx
    | succ d ih =>
      rw [← Nat.add_assoc]
      rcases h.view (m := m + d) (by omega) with ⟨y, h1, h2⟩ | ⟨_, h2⟩
      · cases h2 with
        | arm b e i n1 ht hn =>
          have hst : (σ.node (m + d + 1) a).st = (runArm i e ⟨(σ.node (m + d) a).st, []⟩).2.st := by rw [hn]; rfl
          rw [hst]
          rcases arm_senders (e := e) (take_spec ht).1 (h.facts (m := m + d) (by omega)).nt.ck r x ih with g | g
          · exfalso
            have h1 := (h.pos (m := m + d) (by omega)).1
            have h2 := (h.pos (m := m + d + 1) (by omega)).1
            rw [hst] at h2
            have g : (σ.node (m + d) a).st.height < (runArm i e ⟨(σ.node (m + d) a).st, []⟩).2.st.height := g
            omega
          · exact g
        | smr t q hq hs g1 => rw [g1]; exact ih
        | time x a hs hx g1 => rw [g1]; exact ih
        | verifyDone c i m au hm hn => rw [hn]; exact ih
        | checkDone i b g0 g1 => rw [g1]; exact ih
      · rw [h2]; exact ih
  intro m' hm'
  have := this (m' - m)
  rwa [show m + (m' - m) = m' by omega] at this

/-- A message that the node has checked is taken up. -/
theorem handles (h : Halted f lists correct mode leader σ n0 a k r) {m : Nat} (hm : n0 ≤ m) {y : OverlordMsg T}
    (hq : y ∈ (σ.node m a).verifiedQ) :
    ∃ m' e, m ≤ m' ∧ σ.act m' = some (a, .arm .verified e none) ∧ (σ.node (m' + 1) a).st = (runArm (.verified y) e ⟨(σ.node m' a).st, []⟩).2.st ∧
      (σ.node (m' + 1) a).sys.trigQ = (σ.node m' a).sys.trigQ ++ trigsOf (runArm (.verified y) e ⟨(σ.node m' a).st, []⟩).2.log := by
  obtain ⟨l1, l2, hl⟩ := List.append_of_mem hq
  have step : ∀ j, n0 ≤ j → ((∃ e, σ.act j = some (a, .arm .verified e none)) ∧
      ∃ y x, (σ.node j a).verifiedQ ++ x = y :: (σ.node (j + 1) a).verifiedQ ∧ (σ.node j a).verifiedQ ≠ [] ∧
        ∃ q e, (σ.node j a).verifiedQ = y :: q ∧ σ.act j = some (a, .arm .verified e none) ∧ (σ.node (j + 1) a).st = (runArm (.verified y) e ⟨(σ.node j a).st, []⟩).2.st ∧
          (σ.node (j + 1) a).sys.trigQ = (σ.node j a).sys.trigQ ++ trigsOf (runArm (.verified y) e ⟨(σ.node j a).st, []⟩).2.log) ∨
      ((¬ ∃ e, σ.act j = some (a, .arm .verified e none)) ∧ ∃ x, (σ.node (j + 1) a).verifiedQ = (σ.node j a).verifiedQ ++ x) := by
    intro j hj
    rcases h.view hj with ⟨y, k1, k2⟩ | ⟨k1, k2⟩
    · cases k2 with
      | arm b e i n1 ht hn =>
        have hvq : (σ.node (j + 1) a).verifiedQ = n1.verifiedQ ++ (runArm i e ⟨(σ.node j a).st, []⟩).2.log.filterMap fun
            | .toVerified m => some m
            | _ => none := by rw [hn]; rfl
        have hst : (σ.node (j + 1) a).st = (runArm i e ⟨(σ.node j a).st, []⟩).2.st := by rw [hn]; rfl
        have other : n1.verifiedQ = (σ.node j a).verifiedQ → b ≠ .verified →
            ((¬ ∃ e, σ.act j = some (a, .arm .verified e none)) ∧ ∃ x, (σ.node (j + 1) a).verifiedQ = (σ.node j a).verifiedQ ++ x) := by
          intro h1 h2
          refine ⟨?_, _, by rw [hvq, h1]⟩
          rintro ⟨e', he⟩
          rw [k1] at he
          cases he
          exact h2 rfl
        cases b with
        | raw m => simp only [NodeSys.take, Option.some.injEq, Prod.mk.injEq] at ht; obtain ⟨rfl, rfl⟩ := ht; exact .inr (other rfl (by simp))
        | event =>
          simp only [NodeSys.take] at ht
          split at ht
          · cases ht
          · cases ht; exact .inr (other rfl (by simp))
        | resp =>
          simp only [NodeSys.take] at ht
          split at ht
          · cases ht
          · cases ht; exact .inr (other rfl (by simp))
        | verified =>
          simp only [NodeSys.take] at ht
          split at ht
          · cases ht
          · rename_i y q hyq
            simp only [Option.some.injEq, Prod.mk.injEq] at ht
            obtain ⟨rfl, rfl⟩ := ht
            exact .inl ⟨⟨e, k1⟩, y, _, by rw [hvq, hyq]; rfl, by rw [hyq]; simp, q, e, hyq, k1, hst, by rw [hn]; simp [NodeSys.took, NodeSys.absorb, cutTo]⟩
      | smr t q hq hs g1 g2 g3 g4 g5 => exact .inr ⟨(by rintro ⟨e, he⟩; rw [k1] at he; cases he), [], by rw [g5]; simp⟩
      | time y b hs hy g1 g2 g3 g4 g5 =>
        refine .inr ⟨?_, [], by rw [g5]; simp⟩
        rintro ⟨e, he⟩; rw [k1] at he; cases he
        rcases hy with ⟨hy, _⟩ | ⟨_, hy, _⟩ | ⟨_, hy, _⟩ <;> cases hy
      | verifyDone c i m au hm hn => exact .inr ⟨(by rintro ⟨e, he⟩; rw [k1] at he; cases he), _, by rw [hn]⟩
      | checkDone i b g0 g1 g2 g5 => exact .inr ⟨(by rintro ⟨e, he⟩; rw [k1] at he; cases he), [], by rw [g5]; simp⟩
    · exact .inr ⟨(by rintro ⟨e, he⟩; exact k1 _ he), [], by rw [k2]; simp⟩
  obtain ⟨m', g1, g2, x, _, g4⟩ := fifo_served (fun j => (σ.node j a).verifiedQ) (fun j => ∃ e, σ.act j = some (a, .arm .verified e none)) (fun _ => True) n0
    (by
      intro j hj
      rcases step j hj with ⟨k1, y, x, k2, k3, _⟩ | ⟨k1, x, k2⟩
      · exact .inl ⟨k1, y, x, by simp, k2, k3⟩
      · exact .inr ⟨k1, x, by simp, k2⟩)
    (fun j hj hne => by
      obtain ⟨m, e, q1, q2⟩ := h.served.verified j hj hne
      exact ⟨m, q1, e, q2⟩) y l2 l1 m hm hl
  have hm' : n0 ≤ m' := by omega
  rcases step m' hm' with ⟨_, z, _, _, _, q, e, k3, k4⟩ | ⟨k1, _⟩
  · have g4 : (σ.node m' a).verifiedQ = y :: (l2 ++ x) := g4
    rw [g4] at k3
    cases k3
    exact ⟨m', e, g1, k4⟩
  · exact absurd g2 k1

/-- A choke that the node has checked is stored. -/
theorem stores (h : Halted f lists correct mode leader σ n0 a k r) {m : Nat} (hm : n0 ≤ m) (hc : Clear σ a m) {sc : SignedChoke}
    (h1 : sc.choke.height = k) (h2 : sc.choke.round = r) (hq : .signedChoke sc ∈ (σ.node m a).verifiedQ) :
    ∃ m', ∀ j, m' ≤ j → sc.address ∈ senders (σ.node j a).st r := by
  obtain ⟨m', e, g1, _, k4, _⟩ := h.handles hm hq
  have hm' : n0 ≤ m' := by omega
  have hr := h.clear_round hm' (h.clear_on hm hc m' g1)
  obtain ⟨hp1, hp2⟩ := h.pos hm'
  have := recv_all (e := e) (sc := sc) hp2 (h.facts hm').nt.ck (h1.trans hp1.symm) (h2.trans hr.symm)
  rw [hr] at this
  refine ⟨m' + 1, h.senders_on (by omega) ?_⟩
  rw [k4]
  exact this

/-- A choke of another live node gets through the check of the signature. -/
theorem checks (h : Halted f lists correct mode leader σ n0 a k r) {live : Address → Bool} (hlive : live a = true) (hca : ChokesArrive σ n0 live)
    {b : Address} (hb : live b = true) (hab : b ≠ a) {m : Nat} (hm : n0 ≤ m) {sc : SignedChoke} (h3 : σ.Broadcasts m b (.signedChoke sc))
    (h4 : sc.choke.height = k) : ∃ m2, m < m2 ∧ .signedChoke sc ∈ (σ.node m2 a).verifiedQ := by
  obtain ⟨m1, e, g1, g2⟩ := hca.delivered m b a sc (by omega) hb hlive hab h3
  have hm1 : n0 ≤ m1 := by omega
  -- the check of the signature begins
  have hin : ∃ au, (.signedChoke sc, au) ∈ (σ.node (m1 + 1) a).verifying := by
    rcases h.view hm1 with ⟨y, k1, k2⟩ | ⟨k1, _⟩
    · rw [g2] at k1
      cases k1
      cases k2 with
      | arm _ _ i n1 ht hn =>
        simp only [NodeSys.take, Option.some.injEq, Prod.mk.injEq] at ht
        obtain ⟨rfl, rfl⟩ := ht
        refine ⟨(σ.node m1 a).st.authority, ?_⟩
        rw [hn]
        refine List.mem_append_right _ ?_
        have hp := (h.pos hm1).1
        exact List.mem_filterMap.2 ⟨_, raw_choke (h4.trans hp.symm), rfl⟩
      | time _ b hs hy => rcases hy with ⟨hy, _⟩ | ⟨i, hy, _⟩ | ⟨i, hy, _⟩ <;> cases hy
    · exact absurd g2 (k1 _)
  obtain ⟨au, hin⟩ := hin
  -- it ends
  obtain ⟨m2, c, i, q1, q2, q3⟩ := h.served.verify (m1 + 1) _ (by omega) hin
  have hpass := hca.pass m m2 b a sc au c i (by omega) (by omega) hb hlive h3 q2 q3
  have hver : .signedChoke sc ∈ (σ.node (m2 + 1) a).verifiedQ := by
    rcases h.view (m := m2) (by omega) with ⟨y, k1, k2⟩ | ⟨k1, _⟩
    · rw [q2] at k1
      cases k1
      cases k2 with
      | verifyDone _ _ m' au' hm' hn =>
        rw [q3] at hm'
        cases hm'
        rw [hn]
        refine List.mem_append_right _ ?_
        rw [if_pos hpass]
        exact List.mem_cons_self ..
      | time _ b hs hy => rcases hy with ⟨hy, _⟩ | ⟨i, hy, _⟩ | ⟨i, hy, _⟩ <;> cases hy
    · exact absurd q2 (k1 _)
  exact ⟨m2 + 1, by omega, hver⟩

/-- A choke of another live node of the round arrives and is stored. -/
theorem arrives (h : Halted f lists correct mode leader σ n0 a k r) {live : Address → Bool} (hlive : live a = true) (hca : ChokesArrive σ n0 live)
    {b : Address} (hb : live b = true) (hbh : Halted f lists correct mode leader σ n0 b k r) :
    ∃ m', ∀ j, m' ≤ j → b ∈ senders (σ.node j a).st r := by
  obtain ⟨M, sc0, c1, c2, c3, c4, c5, c6, c7, _⟩ := h.chokes (Nat.le_refl _)
  by_cases hab : b = a
  · subst hab
    exact ⟨M + 1, h.senders_on (by omega) c7⟩
  · obtain ⟨m, sc, h1, _, h3, h4, h5, h6, _⟩ := hbh.chokes (n := M) (by omega)
    obtain ⟨m2, q1, hver⟩ := h.checks hlive hca hb hab (by omega) h3 h4
    obtain ⟨m', hm'⟩ := h.stores (m := m2) (by omega) (h.clear_on (by omega) c2 _ (by omega)) h4 h5 hver
    rw [h6] at hm'
    exact ⟨m', hm'⟩

/-- Enough live nodes: the round cannot last. -/
theorem ends {live : Address → Bool} (hca : ChokesArrive σ n0 live)
    (hlen : 2 * (lists k).length < 3 * ((lists k).filter fun v => live v.address).length)
    (hall : ∀ b, live b = true → Halted f lists correct mode leader σ n0 b k r) : False := by
  cases hl : (lists k).filter fun v => live v.address with
  | nil => rw [hl] at hlen; simp at hlen
  | cons v vs =>
    have hv : live v.address = true := by
      have := List.mem_filter.1 (show v ∈ (lists k).filter fun v => live v.address by rw [hl]; exact List.mem_cons_self ..)
      exact this.2
    have h := hall _ hv
    have key : ∀ l : List Node, (∀ x ∈ l, live x.address = true) → ∃ m', n0 ≤ m' ∧ ∀ j, m' ≤ j → ∀ x ∈ l, x.address ∈ senders (σ.node j v.address).st r := by
      intro l
      induction l with
      | nil => intro _; exact ⟨n0, Nat.le_refl _, by simp⟩
      | cons y l ih =>
        intro hy
        obtain ⟨m1, h0, h1⟩ := ih fun x hx => hy x (List.mem_cons_of_mem _ hx)
        obtain ⟨m2, h2⟩ := h.arrives hv hca (hy y (by simp)) (hall _ (hy y (by simp)))
        refine ⟨max m1 m2, by omega, fun j hj x hx => ?_⟩
        rcases List.mem_cons.1 hx with rfl | hx
        · exact h2 j (by omega)
        · exact h1 j (by omega) x hx
    obtain ⟨M, hM0, hM⟩ := key ((lists k).filter fun v => live v.address) (fun x hx => (List.mem_filter.1 hx).2)
    obtain ⟨m, sc, h1, _, _, _, _, _, _, h8⟩ := h.chokes (n := M) hM0
    apply h8
    have hnd : (((lists k).filter fun v => live v.address).map Node.address).Nodup :=
      ((h.glists k).1).sublist (List.Sublist.map _ List.filter_sublist)
    have hsub : (((lists k).filter fun v => live v.address).map Node.address) ⊆ senders (σ.node (m + 1) v.address).st r := by
      intro x hx
      obtain ⟨y, hy, rfl⟩ := List.mem_map.1 hx
      exact hM (m + 1) (by omega) y hy
    have := (List.subperm_of_subset hnd hsub).length_le
    rw [List.length_map] at this
    omega

end Halted

end

end Overlord.Pace
