import Verif.Spec.Reasons
import Verif.Proofs.OrderNet
import Verif.Proofs.Chokes

/-! The chokes of a correct node explain its round (used for C55): the State and the voting state machine. -/

set_option linter.unusedSimpArgs false
set_option linter.unusedVariables false
set_option linter.unusedSectionVars false
set_option linter.unnecessarySeqFocus false

namespace Overlord
open M Spec

variable {T : Type} [ContentCodec T] [DecidableEq T]

namespace Why

/-- A position and its reason. -/
def Ok (lists : Nat → List Node) (B : Certs) (k r : Nat) (u : UpdateFrom) : Prop := 1 ≤ r → Explains (lists k).length k r u ∧
  ∀ qc, u = .prevoteQC qc ∨ u = .precommitQC qc → QcIn B qc

/-- What is known about a State. -/
structure StWhy (lists : Nat → List Node) (B : Certs) (s : State T) : Prop where
  ck : ChokesOk s.chokes
  qcs : s.consensusPower = true → ∀ r qc, s.chokes.getQc r = some qc → qc.round = r ∧ 2 * (lists s.height).length < 3 * qc.voters.length
  why : s.consensusPower = true → Ok lists B s.height s.round s.updateFrom

/-- What is known about an effect. -/
def EffWhy (lists : Nat → List Node) (B : Certs) : Effect T → Prop
  | .saveWal w true => Ok lists B w.height w.round w.from
  | .broadcast (.signedChoke sc) => Ok lists B sc.choke.height sc.choke.round sc.choke.from
  | _ => True

theorem Ok.mono {lists : Nat → List Node} {B B' : Certs} (hB : ∀ ty k r x, B ty k r x → B' ty k r x) {k r : Nat} {u : UpdateFrom}
    (h : Ok lists B k r u) : Ok lists B' k r u := fun hr => ⟨(h hr).1, fun qc hq => hB _ _ _ _ ((h hr).2 qc hq)⟩

theorem StWhy.mono {lists : Nat → List Node} {B B' : Certs} (hB : ∀ ty k r x, B ty k r x → B' ty k r x) {s : State T}
    (h : StWhy lists B s) : StWhy lists B' s := ⟨h.ck, h.qcs, fun hp => (h.why hp).mono hB⟩

theorem EffWhy.mono {lists : Nat → List Node} {B B' : Certs} (hB : ∀ ty k r x, B ty k r x → B' ty k r x) {x : Effect T}
    (h : EffWhy lists B x) : EffWhy lists B' x := by
  unfold EffWhy at *
  split <;> simp_all only
  · exact h.mono hB
  · exact h.mono hB

/-- What is known about an order. -/
def EvWhy (B : Certs) : SMREvent → Prop
  | .newRoundInfo k r _ _ f _ _ => r = 0 ∨ match f with
      | .prevoteQC x => x + 1 = r
      | .precommitQC x => x + 1 = r ∧ x ≠ U64MAX ∧ B .precommit k x []
      | .chokeQC x => x + 1 = r
  | _ => True

theorem EvWhy.mono {B B' : Certs} (hB : ∀ ty k r x, B ty k r x → B' ty k r x) {ev : SMREvent} (h : EvWhy B ev) : EvWhy B' ev := by
  cases ev with
  | newRoundInfo k r lr lp f ni nc =>
    refine h.imp id ?_
    cases f with
    | precommitQC x => exact fun h => ⟨h.1, h.2.1, hB _ _ _ _ h.2.2⟩
    | _ => exact id
  | _ => trivial

/-- The voting state machine says why a round is entered. -/
theorem smr_why {B : Certs} (m : Smr) (t : SMRTrigger) (ht : TrigCert B t)
    (hs : t.triggerType = .prevoteQC ∨ t.triggerType = .precommitQC → t.round < 2 ^ 64 - 1) (hc : t.triggerType = .continueRound → t.round < 2 ^ 64) :
    ∀ ev ∈ (m.onTrigger t).outs.filterMap Out.toState, EvWhy B ev := by
  have hcase := smr_case m t
  generalize m.onTrigger t = o at *
  intro ev hev
  cases hcase with
  | newHeight st h1 hs hlt =>
    simp only [Out.toState, List.filterMap_cons, List.filterMap_nil, List.mem_singleton] at hev
    subst hev; exact .inl rfl
  | prevoteSkip h1 h2 h3 h4 =>
    simp only [Out.toState, List.filterMap_cons, List.filterMap_nil, List.mem_cons, List.not_mem_nil, or_false] at hev
    rcases hev with rfl | rfl
    · right
      show t.round + 1 = inc64 t.round
      have := hs (.inl h1)
      unfold inc64 U64; omega
    · trivial
  | precommitNil h1 h2 h3 h4 h5 hn =>
    simp only [Out.toState, List.filterMap_cons, List.filterMap_nil, List.mem_singleton] at hev
    subst hev
    right
    have := hs (.inr h1)
    refine ⟨?_, ?_, ?_⟩
    · show t.round + 1 = inc64 t.round
      unfold inc64 U64; omega
    · unfold U64MAX; omega
    · have := (ht h2).2.2 h1
      rw [h3, hn] at this
      exact this
  | cont h1 h2 h3 h4 =>
    simp only [Out.toState, List.filterMap_cons, List.filterMap_nil, List.mem_singleton] at hev
    subst hev
    right
    have := hc h1
    show t.round - 1 + 1 = inc64 (t.round - 1)
    unfold inc64 U64; omega
  | wal w h1 h2 =>
    unfold Smr.handleWal at hev
    dsimp only at hev
    split at hev <;> simp [Out.toState] at hev
  | _ =>
    simp only [Out.toState, List.filterMap_cons, List.filterMap_nil, List.mem_singleton, List.not_mem_nil] at hev
    try (subst hev; trivial)

/-- Not an order to enter a round: the reason stays. -/
theorem from_same {e : Env T} {s : State T} {i : Input T} (hi : i ≠ .start) (hn : ∀ r lr lp f, ¬ NewRoundInput i r lr lp f) :
    (runArm i e ⟨s, []⟩).2.st.updateFrom = s.updateFrom := by
  refine arm_state_inv (e := e) (i := i) (s := s) (P := fun s' => s'.updateFrom = s.updateFrom) rfl ?_
  intro s1 eff s2 h1 hm
  cases hm with
  | setFrom u round lr lp f h => exact absurd h (hn _ _ _ _)
  | restoreFrom w b h => exact absurd h hi
  | _ => exact h1

/-- Chokes are sent on an order to do so. -/
theorem no_choke {e : Env T} {s : State T} {i : Input T} (hi : i ≠ .start) (hb : ∀ h r lr, i ≠ .event (.brake h r lr)) (sc : SignedChoke) :
    .broadcast (.signedChoke sc) ∉ (runArm i e ⟨s, []⟩).2.log := by
  intro hx
  obtain ⟨s1, eff, s2, _, hm, hxe⟩ := arm_effect (P := fun _ : State T => True) trivial (fun _ _ _ _ _ => trivial) hx
  cases hm with
  | castChoke sc lr lock hsv h =>
    rcases h with ⟨h, r, h, _⟩ | h
    · exact hb _ _ _ h
    · exact hi h
  | enterRound => split at hxe <;> simp at hxe
  | castVote => split at hxe <;> simp at hxe
  | _ => simp at hxe

/-- The choke certificates that are stored. -/
theorem arm_qcs {lists : Nat → List Node} {B : Certs} {e : Env T} {s : State T} {i : Input T} (hi : i ≠ .start) (hsv : ∀ b, e.walSave b = true)
    (hau : s.consensusPower = true → s.authority = Authority.update (lists s.height)) (h0 : StWhy lists B s) :
    ChokesOk (runArm i e ⟨s, []⟩).2.st.chokes ∧ ((runArm i e ⟨s, []⟩).2.st.consensusPower = true →
      ∀ r qc, (runArm i e ⟨s, []⟩).2.st.chokes.getQc r = some qc →
      qc.round = r ∧ 2 * (lists (runArm i e ⟨s, []⟩).2.st.height).length < 3 * qc.voters.length) := by
  have key := arm_state_inv (e := e) (i := i) (s := s) (P := fun s' => ChokesOk s'.chokes ∧ (s'.consensusPower = true → ∀ r qc, s'.chokes.getQc r = some qc →
      qc.round = r ∧ 2 * (lists s'.height).length < 3 * qc.voters.length) ∧
      ((∃ sc, i = .verified (.signedChoke sc)) ∨ (∃ h r lr, i = .event (.brake h r lr)) →
        s'.authority = s.authority ∧ s'.height = s.height ∧ s'.consensusPower = s.consensusPower))
    ⟨h0.ck, h0.qcs, fun _ => ⟨rfl, rfl, rfl⟩⟩ ?_
  · exact ⟨key.1, key.2.1⟩
  · intro s1 eff s2 ⟨h1, h2, h3⟩ hm
    refine ⟨chokesOk_micro h1 hm, ?_⟩
    have len : (∃ sc, i = .verified (.signedChoke sc)) ∨ (∃ h r lr, i = .event (.brake h r lr)) → s1.consensusPower = true →
        s1.authority.len = (lists s1.height).length := by
      intro hx hp
      obtain ⟨g1, g2, g3⟩ := h3 hx
      rw [g1, hau (g3 ▸ hp), update_len, g2]
    have set : ∀ (ac : AggregatedChoke) r, (s1.consensusPower = true → ac.round = r ∧ 2 * (lists s1.height).length < 3 * ac.voters.length) →
        (s1.consensusPower = true → ∀ r' qc, (s1.chokes.setQc r ac).getQc r' = some qc → qc.round = r' ∧ 2 * (lists s1.height).length < 3 * qc.voters.length) := by
      intro ac r hac hp r' qc hq
      unfold ChokeCollector.setQc ChokeCollector.getQc at hq
      rw [AMap.get?_insert] at hq
      split at hq
      · rename_i he
        cases hq
        rw [← he]; exact hac hp
      · exact h2 hp r' qc hq
    cases hm with
    | chokeQuorum round scs sig hin hmx hr hc ha =>
      have hin' := hin.imp_right fun h => h.resolve_right hi
      refine ⟨set _ _ fun hp => ⟨rfl, ?_⟩, h3⟩
      have := (maxRound_some h1 hmx).1
      rw [len hin' hp] at this
      rw [held_eq] at this
      unfold ChokeCollector.getChokes at hc
      obtain ⟨m, g1, rfl⟩ := Option.map_eq_some_iff.1 hc
      rw [g1] at this
      simp only [mkChokeQc, List.length_map]
      have hp := (e.sh.perm (AMap.values m)).length_eq
      rw [hp]
      simpa [AMap.values] using this
    | recvChokeQc ac hin hl =>
      obtain ⟨sc, hs, _⟩ := hin
      refine ⟨set _ _ fun hp => ⟨rfl, ?_⟩, h3⟩
      rw [len (.inl ⟨sc, hs⟩) hp] at hl
      omega
    | recvChoke sc => exact ⟨fun hp r qc hq => h2 hp r qc hq, h3⟩
    | ownChoke sc => exact ⟨fun hp r qc hq => h2 hp r qc hq, h3⟩
    | commit hash content qc hs hin =>
      refine ⟨h2, ?_⟩
      rintro (⟨sc, hx⟩ | ⟨h, r, lr, hx⟩) <;> rcases hin with hin | hin <;> rw [hx] at hin <;> cases hin
    | move status hin hh hp =>
      refine ⟨fun hp' => ?_, ?_⟩
      · have hp' : status.isConsensusNode s1.address = true := hp'
        rw [hp] at hp'; cases hp'
      · rintro (⟨sc, hx⟩ | ⟨h, r, lr, hx⟩) <;> rcases hin with hin | hin | ⟨_, hin⟩ <;> rw [hx] at hin <;> cases hin
    | moveLost status hs hin hh =>
      obtain ⟨b, _, hb⟩ := hs
      rw [hsv] at hb; cases hb
    | adopt status hs hin hh hp =>
      refine ⟨fun _ r qc hq => ?_, ?_⟩
      · simp [State.adopted, State.moved, ChokeCollector.new, ChokeCollector.getQc, AMap.get?] at hq
      · rintro (⟨sc, hx⟩ | ⟨h, r, lr, hx⟩) <;> rcases hin with hin | hin | ⟨_, hin⟩ <;> rw [hx] at hin <;> cases hin
    | restorePos w b hin => exact absurd hin hi
    | _ => exact ⟨h2, h3⟩

/-- One step of the main loop. -/
theorem arm_why {lists : Nat → List Node} {B : Certs} {e : Env T} {s : State T} {i : Input T} (hi : i ≠ .start) (hsv : ∀ b, e.walSave b = true)
    (hau : s.consensusPower = true → s.authority = Authority.update (lists s.height)) (h0 : StWhy lists B s)
    (hnr : ∀ k r lr lp f ni nc, i = .event (.newRoundInfo k r lr lp f ni nc) → s.consensusPower = true → s.stopped = false →
      (∃ p, Carry.Entered e s r lr lp f p (runArm i e ⟨s, []⟩).2) ∧ ∀ u, FromOf s f u → Ok lists B s.height r u) :
    StWhy lists B (runArm i e ⟨s, []⟩).2.st ∧ ∀ x ∈ (runArm i e ⟨s, []⟩).2.log, EffWhy lists B x := by
  obtain ⟨q1, q2⟩ := arm_qcs hi hsv hau h0
  have hfs := from_same (e := e) (s := s) hi
  have hnc := no_choke (e := e) (s := s) hi
  have saves : ∀ l : List (Effect T), (∀ w, .save w ∈ obs l → Ok lists B w.height w.round w.from) → (∀ sc, .broadcast (.signedChoke sc) ∈ l →
      Ok lists B sc.choke.height sc.choke.round sc.choke.from) → ∀ x ∈ l, EffWhy lists B x := by
    intro l g1 g2 x hx
    cases x with
    | saveWal w ok =>
      cases ok with
      | true => exact g1 w (List.mem_filterMap.2 ⟨_, hx, rfl⟩)
      | false => trivial
    | broadcast m =>
      cases m with
      | signedChoke sc => exact g2 sc hx
      | _ => trivial
    | _ => trivial
  have hmv : ∀ (s' : State T) st (w : World T), Moves e s' st w → Ok lists B s'.height s'.round s'.updateFrom →
      (Ok lists B w.st.height w.st.round w.st.updateFrom) ∧ ∀ x, .save x ∈ obs w.log → Ok lists B x.height x.round x.from := by
    intro s' st w o h
    have zero : ∀ k u, Ok lists B k 0 u := fun _ _ h => absurd h (by simp)
    cases o with
    | stay => exact ⟨h, by simp [obs]⟩
    | away => exact ⟨zero _ _, by simp [obs]⟩
    | lost _ _ hs => obtain ⟨b, _, hb⟩ := hs; rw [hsv] at hb; cases hb
    | adopt =>
      refine ⟨zero _ _, fun x hx => ?_⟩
      rw [obs_adopt (st := st.toSMR) _ _ _ _ rfl] at hx
      simp only [List.mem_cons, Obs.save.injEq, List.not_mem_nil, or_false, reduceCtorEq] at hx
      subst hx
      exact zero _ _
  by_cases hev : ∃ ev, i = .event ev
  · obtain ⟨ev, rfl⟩ := hev
    by_cases hid : s.consensusPower = false ∨ s.stopped = true
    · rw [event_idle hid]
      exact ⟨h0, by simp⟩
    simp only [not_or, Bool.not_eq_false, Bool.not_eq_true] at hid
    obtain ⟨hp, hs⟩ := hid
    have hy := h0.why hp
    have o := event_out e s ev hp hs
    generalize hw : (runArm (.event ev) e ⟨s, []⟩).2 = w at *
    have vote : ∀ ty hash lr, VoteOut s ty hash lr w → w.st.updateFrom = s.updateFrom → (∀ sc, .broadcast (.signedChoke sc) ∉ w.log) →
        StWhy lists B w.st ∧ ∀ x ∈ w.log, EffWhy lists B x := by
      intro ty hash lr o hf hn
      refine ⟨⟨q1, q2, fun _ => by rw [o.same.height, o.round, hf]; exact hy⟩, saves _ ?_ fun sc hx => absurd hx (hn sc)⟩
      rcases o.out with g | ⟨lock, sv, _, _, _, g⟩ <;> rw [g]
      · simp
      · simp only [List.mem_cons, Obs.save.injEq, List.not_mem_nil, or_false, reduceCtorEq]
        rintro x rfl
        exact hy
    cases o with
    | newRound h r lr lp f ni nc o =>
      obtain ⟨⟨p, hen⟩, hu⟩ := hnr _ _ _ _ _ _ _ rfl hp hs
      have hok := hu _ hen.reason
      refine ⟨⟨q1, q2, fun _ => by rw [o.same.height, hen.round]; exact hok⟩, saves _ ?_ fun sc hx => absurd hx (hnc (by simp) sc)⟩
      obtain ⟨lock, _, g⟩ := hen.saved
      have g : .save _ ∈ obs w.log := List.mem_filterMap.2 ⟨_, g, rfl⟩
      rcases o.out with g1 | ⟨lock', u, _, g1⟩ <;> rw [g1] at g ⊢
      · simp at g
      · simp only [List.mem_cons, Obs.save.injEq, List.not_mem_nil, or_false, WalInfo.mk.injEq, true_and] at g ⊢
        rintro x rfl
        rw [← g.2]
        exact hok
    | prevote h r hash lr o => exact vote _ _ _ o (hfs (by rintro r lr lp f ⟨h, ni, nc, hx⟩; cases hx)) (hnc (by simp))
    | precommit h r hash lr o => exact vote _ _ _ o (hfs (by rintro r lr lp f ⟨h, ni, nc, hx⟩; cases hx)) (hnc (by simp))
    | commit hash o =>
      have hch := hnc (by simp)
      have hrec : ∀ qc content, Ok lists B (commitRec s qc content).height (commitRec s qc content).round (commitRec s qc content).from := fun _ _ => hy
      cases o with
      | none => exact ⟨⟨q1, q2, fun _ => hy⟩, by simp⟩
      | lost content qc _ _ hs => exact ⟨⟨q1, q2, fun _ => hy⟩, by simp [EffWhy]⟩
      | failed content qc =>
        refine ⟨⟨q1, q2, fun _ => hy⟩, saves _ ?_ fun sc hx => absurd hx (hch sc)⟩
        simp only [obs, obsOf, List.filterMap_cons, List.filterMap_nil, List.mem_cons, Obs.save.injEq, List.not_mem_nil, or_false, reduceCtorEq]
        rintro x rfl
        exact hrec _ _
      | stuck content qc status x =>
        refine ⟨⟨q1, q2, fun _ => hy⟩, saves _ ?_ fun sc hx => absurd hx (hch sc)⟩
        simp only [obs, obsOf, List.filterMap_cons, List.filterMap_nil, List.mem_cons, Obs.save.injEq, List.not_mem_nil, or_false, reduceCtorEq]
        rintro x rfl
        exact hrec _ _
      | done content qc status w' hb hq hsv' hc hm =>
        obtain ⟨g1, g2⟩ := hmv { s with authority := Authority.update status.authorityList } _ _ hm hy
        refine ⟨⟨q1, q2, fun _ => g1⟩, saves _ ?_ fun sc hx => absurd hx (hch sc)⟩
        intro x hx
        rw [obs_append] at hx
        rcases List.mem_append.1 hx with hx | hx
        · simp only [obs, obsOf, List.filterMap_cons, List.filterMap_nil, List.mem_cons, Obs.save.injEq, List.not_mem_nil, or_false, reduceCtorEq] at hx
          subst hx; exact hrec _ _
        · exact g2 x hx
    | brake r lr o =>
      refine ⟨⟨q1, q2, fun _ => by rw [o.same.height, o.round, o.keep.2.2.1]; exact hy⟩, saves _ ?_ fun sc hx => ?_⟩
      · rcases o.out with g | ⟨lock, _, g⟩ <;> rw [g]
        · simp
        · simp only [List.mem_cons, Obs.save.injEq, List.not_mem_nil, or_false, reduceCtorEq]
          rintro x rfl
          exact hy
      · obtain ⟨sc', h1, h2⟩ := o.sends _ hx
        cases h1
        rw [h2]; exact hy
    | stale h r lr hh hw' => rw [hw']; exact ⟨h0, by simp⟩
    | stop hw' => rw [hw']; exact ⟨h0, by simp⟩
  · have hfr := hfs (by rintro r lr lp f ⟨h, ni, nc, hx⟩; exact hev ⟨_, hx⟩)
    have hch := hnc (by rintro h r lr hx; exact hev ⟨_, hx⟩)
    have ho := arm_out e s i hi
    generalize hw : (runArm i e ⟨s, []⟩).2 = w at *
    cases ho with
    | quiet g1 g2 g3 =>
      refine ⟨⟨q1, q2, fun hp => ?_⟩, saves _ (by rw [g1]; simp) fun sc hx => absurd hx (hch sc)⟩
      rw [g2.height, g3, hfr]
      exact h0.why (by rw [← g2.power]; exact hp)
    | event ev hx => exact absurd ⟨_, hx⟩ hev
    | status st hx o =>
      refine ⟨⟨q1, q2, fun hp => ?_⟩, saves _ ?_ fun sc hx => absurd hx (hch sc)⟩
      · cases o with
        | stay => exact h0.why hp
        | away => intro h; exact absurd h (by simp [State.moved, INIT_ROUND])
        | lost => intro h; exact absurd h (by simp [State.moved, INIT_ROUND])
        | adopt => intro h; exact absurd h (by simp [State.moved, State.adopted, INIT_ROUND])
      · intro x hx
        cases o with
        | stay => simp [obs] at hx
        | away => simp [obs] at hx
        | lost => simp [obs, obsOf, releasedVote] at hx
        | adopt =>
          rw [obs_adopt (st := st.toSMR) _ _ _ _ rfl] at hx
          simp only [List.mem_cons, Obs.save.injEq, List.not_mem_nil, or_false, reduceCtorEq] at hx
          subst hx
          intro h
          exact absurd h (by simp [walRec, State.moved, INIT_ROUND])

end Why

end Overlord
