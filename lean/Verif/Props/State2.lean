import Verif.Props.State
import Verif.Props.Collection

/-!
# C35–C38: who takes part, what is cached, which proposals count, rich statuses
-/

set_option linter.unusedSimpArgs false
set_option linter.unusedVariables false
set_option linter.unusedSectionVars false
set_option linter.unnecessarySeqFocus false

namespace Overlord
open M Spec

variable {T : Type} [ContentCodec T] [DecidableEq T]

/-! ## C35 — nodes outside the authority list are silent -/

/-- A node that is not a validator (`consensusPower = false`) ignores everything but rich statuses: its state
does not change, and it only passes messages through its queues. -/
theorem C35_silent (e : Env T) (i : Input T) (s : State T) (hp : s.consensusPower = false)
    (hi : ∀ st, i ≠ .verified (.richStatus st)) :
    next e i s = s ∧ ∀ x ∈ effects e i s, ¬ Outward x := by
  have : wp (runArm i) e ⟨s, []⟩ (fun _ w => w.st = s ∧ ∀ x ∈ w.log, ¬ Outward x)
      (fun _ w => w.st = s ∧ ∀ x ∈ w.log, ¬ Outward x) := by
    unfold runArm
    cases i with
    | start => wps [startWithWal]; simp [hp]
    | raw m =>
      wps
      refine ⟨fun _ => by simp [Outward], fun _ => ?_⟩
      split
      · wps; simp
      · wps; simp [Outward]
    | event ev => wps; simp [hp]
    | resp r => wps; simp [hp]
    | verified m =>
      wps [handleMsg]
      cases m with
      | richStatus st => exact absurd rfl (hi st)
      | _ => simp [hp, OverlordMsg.isRichStatus]
  exact wp_post this

/-- How the power to take part follows rich statuses: a status of a higher height gives it to exactly the listed
addresses, others change nothing; one that does not list the node changes nothing else but its position. -/
theorem C35_power_follows_status (e : Env T) (s : State T) (st : Status) :
    ((next e (.verified (.richStatus st)) s).consensusPower =
      if s.height < st.height then decide (s.address ∈ st.authorityList.map Node.address)
      else s.consensusPower) ∧
    (s.address ∉ st.authorityList.map Node.address → s.height < st.height →
      next e (.verified (.richStatus st)) s =
        { s with height := st.height, round := 0, consensusPower := false } ∧
      effects e (.verified (.richStatus st)) s = []) := by
  have hc : st.isConsensusNode s.address = decide (s.address ∈ st.authorityList.map Node.address) := by
    rw [Bool.eq_iff_iff]; simp [Status.isConsensusNode]
  have : wp (runArm (.verified (.richStatus st))) e ⟨s, []⟩
      (fun _ w => (w.st.consensusPower = if s.height < st.height then st.isConsensusNode s.address else
        s.consensusPower) ∧ (st.isConsensusNode s.address = false → s.height < st.height →
          w.st = { s with height := st.height, round := 0, consensusPower := false } ∧ w.log = []))
      (fun _ w => (w.st.consensusPower = if s.height < st.height then st.isConsensusNode s.address else
        s.consensusPower) ∧ (st.isConsensusNode s.address = false → s.height < st.height →
          w.st = { s with height := st.height, round := 0, consensusPower := false } ∧ w.log = [])) := by
    unfold runArm handleMsg
    wps
    refine ⟨fun h => by simp [OverlordMsg.isRichStatus] at h, fun _ => ?_⟩
    refine wp_gotoNewHeight ?_ ?_ ?_ ?_ ?_
    · intro h; simp [Nat.not_lt.2 h]
    · intro h h1; simp [h, State.moved, h1, INIT_ROUND]
    · intro h h1 _; simp [h, State.moved, h1, INIT_ROUND]
    · intro b h h1 _ _; simp [h, State.moved, h1, INIT_ROUND]
    · intro b h h1 _ _; simp [h, State.adopted, State.moved, h1, INIT_ROUND]
  have := wp_post this
  refine ⟨by rw [← hc]; exact this.1, fun hn hh => ?_⟩
  exact this.2 (by rw [hc]; simpa using hn) hh

/-- A node that is not in the initial authority list and that no rich status ever lists does nothing outside,
over any history. -/
theorem C35_outsider_never_acts (addr : Address) (h0 interval : Nat) (l : List Node)
    (hl : addr ∉ l.map Node.address) (ins : List (Env T × Input T))
    (hs : ∀ e st, (e, .verified (.richStatus st)) ∈ ins → addr ∉ st.authorityList.map Node.address) :
    ∀ x ∈ (State.new addr h0 interval l : State T).trace ins, ¬ Outward x := by
  have key : ∀ (ins : List (Env T × Input T)) (s : State T), s.consensusPower = false → s.address = addr →
      (∀ e st, (e, .verified (.richStatus st)) ∈ ins → addr ∉ st.authorityList.map Node.address) →
      ∀ x ∈ s.trace ins, ¬ Outward x := by
    intro ins
    induction ins with
    | nil => intro s _ _ _; simp [State.trace]
    | cons a ins ih =>
      obtain ⟨e, i⟩ := a
      intro s hp ha hs
      have h1 : (∀ x ∈ effects e i s, ¬ Outward x) ∧ (next e i s).consensusPower = false ∧
          (next e i s).address = addr := by
        by_cases hi : ∃ st, i = .verified (.richStatus st)
        · obtain ⟨st, rfl⟩ := hi
          have hn := hs e st (by simp)
          have := C35_power_follows_status e s st
          by_cases hh : s.height < st.height
          · obtain ⟨e1, e2⟩ := this.2 (by rw [ha]; exact hn) hh
            rw [e1, e2]
            simp [ha]
          · have hw : wp (runArm (.verified (.richStatus st))) e ⟨s, []⟩ (fun _ w => w = ⟨s, []⟩)
                (fun _ w => w = ⟨s, []⟩) := by
              unfold runArm handleMsg
              wps
              refine ⟨fun h => by simp [OverlordMsg.isRichStatus] at h, fun _ => ?_⟩
              refine wp_gotoNewHeight ?_ ?_ ?_ ?_ ?_ <;> intros <;> first | rfl | omega
            have hw := wp_post hw
            unfold effects next
            rw [hw]
            simp [hp, ha]
        · have := C35_silent e i s hp (fun st he => hi ⟨st, he⟩)
          rw [this.1]
          exact ⟨this.2, hp, ha⟩
      intro x hx
      unfold State.trace at hx
      unfold effects next at h1
      split at hx
      · rename_i w hw
        rw [hw] at h1
        rcases List.mem_append.1 hx with hx | hx
        · exact h1.1 x hx
        · exact ih w.st h1.2.1 h1.2.2 (fun e st h => hs e st (by simp [h])) x hx
      · rename_i r w _ hw
        rw [hw] at h1
        exact h1.1 x hx
  refine key ins _ ?_ rfl hs
  have := update_contains l addr
  simp only [State.new]
  rw [Bool.eq_false_iff]
  exact fun h => hl (this.1 h)

example : ([7] : Address) ∉ StDemo.nodes.map Node.address ∧
    (State.new [7] 7 3000 StDemo.nodes : State StDemo.C).trace
      [(StDemo.env, .start), (StDemo.env, .raw (.signedVote (StDemo.vote 2 7 0 .prevote [5]))),
       (StDemo.env, .verified (.signedVote (StDemo.vote 2 7 0 .prevote [5])))] =
      [.spawnVerify (.signedVote (StDemo.vote 2 7 0 .prevote [5])) (Authority.update StDemo.nodes)] := by
  constructor <;> decide +kernel

/-- The node is in its own authority list, or has no power. -/
def PowerOk (s : State T) : Prop := s.consensusPower = true → s.authority.contains s.address = true

theorem getProposer_rotation_error {a : Authority} {h r : Nat} {x : Err}
    (hx : a.getProposer .rotation h r = .error x) : x = .panic := by
  unfold Authority.getProposer rotationLeaderIndex at hx
  by_cases h0 : a.address.length % U32 = 0
  · simp only [h0, if_true] at hx
    cases hx; rfl
  · simp only [h0, if_false] at hx
    have hlt : (h * leaderStride (a.address.length % U32) + r) % U64 % (a.address.length % U32) < a.address.length :=
      Nat.lt_of_lt_of_le (Nat.mod_lt _ (Nat.pos_of_ne_zero h0)) (Nat.mod_le _ _)
    change (match a.address[(h * leaderStride (a.address.length % U32) + r) % U64 % (a.address.length % U32)]? with
      | some addr => Except.ok addr | none => .error Err.other) = _ at hx
    rw [List.getElem?_eq_getElem hlt] at hx
    cases hx

theorem power_goto {e : Env T} (hw : ∀ b, e.walSave b = true) {s : State T} {l : List (Effect T)} {st : Status}
    (h : st.height ≤ s.height → PowerOk s) :
    wp (gotoNewHeight st) e ⟨s, l⟩ (fun _ w => PowerOk w.st) (fun x w => x ≠ .panic → PowerOk w.st) := by
  refine wp_gotoNewHeight h ?_ ?_ ?_ ?_
  · intro _ h1; simp [PowerOk, State.moved, h1]
  · intro _ _ _ h1; exact absurd rfl h1
  · intro b _ _ _ h1; simp [hw b] at h1
  · intro b _ h1 _ _ _
    show (Authority.update st.authorityList).contains s.address = true
    rw [update_contains]
    simpa [Status.isConsensusNode] using h1

theorem power_commit {e : Env T} (hw : ∀ b, e.walSave b = true) (hm : e.mode = .rotation)
    (hc : ∀ h c st, e.commit h c = some st → h < st.height) {s : State T} {l : List (Effect T)} {hash : Hash}
    (h : PowerOk s) :
    wp (handleCommit hash) e ⟨s, l⟩ (fun _ w => PowerOk w.st) (fun x w => x ≠ .panic → PowerOk w.st) := by
  unfold handleCommit
  wps
  refine ⟨fun content hb => ⟨fun qc hq => ?_, fun _ _ => h⟩, fun _ _ => h⟩
  refine wp_saveWal (fun _ _ => h) (fun _ _ _ _ => h) (fun b e1 e2 => ?_)
  wps [nextProposer]
  refine ⟨fun st hst => ⟨fun p hp => ?_, fun x hx hne => ?_⟩, fun _ _ => h⟩
  · refine power_goto hw fun hle => ?_
    have := hc _ _ _ hst
    dsimp only at hle
    omega
  · rw [hm] at hx
    exact absurd (getProposer_rotation_error hx) hne

/-- If the storage works, `commit` answers with a status of a higher height and leaders rotate (the default), then
over any history a node outside its current authority list has no power, hence (`C35_silent`) does nothing. The
hypotheses are needed, see `C35_unlisted_votes_counterexample`. -/
theorem C35_unlisted_silent_partial (addr : Address) (h0 interval : Nat) (l : List Node)
    (ins : List (Env T × Input T)) (s : State T) (hs : (State.new addr h0 interval l).after ins = some s)
    (hw : ∀ e i, (e, i) ∈ ins → ∀ b, e.walSave b = true) (hm : ∀ e i, (e, i) ∈ ins → e.mode = .rotation)
    (hc : ∀ e i, (e, i) ∈ ins → ∀ h c st, e.commit h c = some st → h < st.height)
    (hn : s.authority.contains addr = false) (e : Env T) (i : Input T)
    (hi : ∀ st, i ≠ .verified (.richStatus st)) :
    next e i s = s ∧ ∀ x ∈ effects e i s, ¬ Outward x := by
  have key : ∀ ins : List (Env T × Input T), (∀ p ∈ ins, (∀ b, p.1.walSave b = true) ∧ p.1.mode = .rotation ∧
      ∀ h c st, p.1.commit h c = some st → h < st.height) → ∀ s0 s, PowerOk s0 → s0.after ins = some s →
      PowerOk s ∧ s.address = s0.address := by
    intro ins
    induction ins with
    | nil => rintro _ s0 s h h1; simp only [State.after, Option.some.injEq] at h1; subst h1; exact ⟨h, rfl⟩
    | cons a ins ih =>
      obtain ⟨e, i⟩ := a
      intro hp s0 s h h1
      obtain ⟨hw, hm, hc⟩ := hp (e, i) (by simp)
      dsimp only at hw hm hc
      have haddr : (next e i s0).address = s0.address :=
        arm_state_inv (P := fun s => s.address = s0.address) rfl (by
          intro s eff s' hp hm
          cases hm <;> exact hp)
      have harm : wp (runArm i) e ⟨s0, []⟩ (fun _ w => PowerOk w.st) (fun x w => x ≠ .panic → PowerOk w.st) := by
        have frame : ∀ {α : Type} (m : M T α) (e : Env T) (w : World T) (s' : State T), (PowerOk s') →
            wp m e w (fun _ w => w.st.authority = s'.authority ∧ w.st.consensusPower = s'.consensusPower ∧
              w.st.address = s'.address) (fun _ w => w.st.authority = s'.authority ∧
              w.st.consensusPower = s'.consensusPower ∧ w.st.address = s'.address) →
            wp m e w (fun _ w => PowerOk w.st) (fun x w => x ≠ .panic → PowerOk w.st) := by
          intro α m e w s' hs' hh
          refine wp_mono hh ?_ ?_
          · rintro _ w ⟨e1, e2, e3⟩; unfold PowerOk; rw [e1, e2, e3]; exact hs'
          · rintro _ w ⟨e1, e2, e3⟩ _; unfold PowerOk; rw [e1, e2, e3]; exact hs'
        by_cases hspec : (∃ st, i = .verified (.richStatus st)) ∨ (∃ hash, i = .event (.commit hash)) ∨ i = .start
        · rcases hspec with ⟨st, rfl⟩ | ⟨hash, rfl⟩ | rfl
          · unfold runArm handleMsg
            wps
            refine ⟨fun _ => h, fun _ => wp_mono (power_goto hw fun _ => h) (fun _ _ h => h) ?_⟩
            intro x w hx
            exact ⟨fun hp => by subst hp; simp, fun hp => hx hp⟩
          · unfold runArm handleEvent
            wps
            refine ⟨fun _ => h, fun _ => ⟨fun _ => h, fun _ => wp_mono (power_commit hw hm hc h) (fun _ _ h => h) ?_⟩⟩
            intro x w hx
            exact ⟨fun hp => by subst hp; simp, fun hp => hx hp⟩
          · unfold runArm
            wps
            suffices hsuf : wp startWithWal e ⟨s0, []⟩ (fun _ w => PowerOk w.st) (fun x w => x ≠ .panic → PowerOk w.st) from
              wp_mono hsuf (fun _ _ h => h) (fun x w hx => ⟨fun hp => by subst hp; simp, fun hp => hx hp⟩)
            unfold startWithWal
            rw [wp_bind, wp_get, wp_ite]
            refine ⟨fun _ => h, fun _ => ?_⟩
            rw [wp_bind]
            unfold loadWal
            rw [wp_bind, wp_ask]
            split
            · exact fun _ => h
            · wps [walLost]; exact ⟨fun _ => h, fun _ => h⟩
            · split
              · rename_i w hd
                wps
                refine wp_isProposer (fun _ _ => h) fun p hp => ?_
                have tail : ∀ s' : State T, PowerOk s' → ∀ l, wp
                    (if w.step = .commit then
                      match w.lock with
                      | none => fail .loadWalErr
                      | some lock => handleCommit lock.lockVotes.blockHash
                    else do
                      if w.step = .brake then handleBrake w.round (w.lock.map WalLock.lockRound)
                      emit (.trigger { stTrigger .walInfo [] none w.round w.height with walInfo := some w.intoSmrBase }))
                    e ⟨s', l⟩ (fun _ w => PowerOk w.st) (fun x w => x ≠ .panic → PowerOk w.st) := by
                  intro s' hs' l
                  rw [wp_ite]
                  refine ⟨fun _ => ?_, fun _ => ?_⟩
                  · split
                    · exact fun _ => hs'
                    · exact power_commit hw hm hc hs'
                  · wps
                    refine ⟨fun _ => ?_, fun _ => hs'⟩
                    refine frame _ _ _ s' hs' ?_
                    unfold handleBrake
                    wps
                    refine ⟨fun _ => (by simp), fun hr => ⟨fun sig hsig => ?_, fun _ => (by simp)⟩⟩
                    refine wp_saveWalLR (fun _ => (by simp)) (fun lock b hl _ _ => (by simp)) (fun lock b hl _ _ => ?_)
                    unfold broadcast checkChokeAboveThreshold
                    wps
                    split
                    · exact ⟨rfl, rfl, rfl⟩
                    · wps [aggregateSignatures]
                      refine ⟨fun _ => (by simp), fun _ => ⟨fun _ _ => ⟨fun _ _ => (by simp), fun _ => (by simp)⟩, fun _ => (by simp)⟩⟩
                cases hlk : w.lock with
                | none =>
                  have := tail _ (show PowerOk { s0 with height := w.height, round := w.round, isLeader := decide (p = s0.address), leaderAddress := p, updateFrom := w.from } from h) []
                  rw [hlk] at this
                  simpa [wp_bind, wp_pure] using this
                | some lock =>
                  have := tail _ (show PowerOk { s0 with height := w.height, round := w.round, isLeader := decide (p = s0.address), leaderAddress := p, updateFrom := w.from, votes := s0.votes.setQc lock.lockVotes, hashWithBlock := s0.hashWithBlock.insert lock.lockVotes.blockHash lock.content } from h) []
                  rw [hlk] at this
                  simpa [wp_bind, wp_modify] using this
              · exact fun _ => h
              · exact fun _ => h
        · have hst : ∀ w, w = (runArm i e ⟨s0, []⟩).2 → w.st.authority = s0.authority ∧
              w.st.consensusPower = s0.consensusPower ∧ w.st.address = s0.address := by
            rintro w rfl
            refine arm_state_inv (P := fun s => s.authority = s0.authority ∧
              s.consensusPower = s0.consensusPower ∧ s.address = s0.address) ⟨rfl, rfl, rfl⟩ ?_
            intro s eff s' hp hm
            cases hm with
            | commit hash content qc hsv hi =>
              rcases hi with rfl | rfl
              · exact absurd (.inr (.inl ⟨_, rfl⟩)) hspec
              · exact absurd (.inr (.inr rfl)) hspec
            | move st hi =>
              rcases hi with rfl | rfl | ⟨hh, rfl⟩
              · exact absurd (.inl ⟨_, rfl⟩) hspec
              · exact absurd (.inr (.inr rfl)) hspec
              · exact absurd (.inr (.inl ⟨_, rfl⟩)) hspec
            | moveLost st hsv hi =>
              rcases hi with rfl | rfl | ⟨hh, rfl⟩
              · exact absurd (.inl ⟨_, rfl⟩) hspec
              · exact absurd (.inr (.inr rfl)) hspec
              · exact absurd (.inr (.inl ⟨_, rfl⟩)) hspec
            | adopt st hsv hi =>
              rcases hi with rfl | rfl | ⟨hh, rfl⟩
              · exact absurd (.inl ⟨_, rfl⟩) hspec
              · exact absurd (.inr (.inr rfl)) hspec
              · exact absurd (.inr (.inl ⟨_, rfl⟩)) hspec
            | _ => exact hp
          have := hst _ rfl
          unfold wp
          split
          · rename_i w hw'; rw [hw'] at this; dsimp only at this; show PowerOk _; unfold PowerOk; rw [this.1, this.2.1, this.2.2]; exact h
          · rename_i w hw'; rw [hw'] at this; dsimp only at this; intro _; show PowerOk _; unfold PowerOk; rw [this.1, this.2.1, this.2.2]; exact h
      unfold State.after at h1
      unfold next at haddr
      unfold wp at harm
      split at h1
      · rename_i w hw'
        rw [hw'] at harm haddr
        have := ih (fun p hp' => hp p (by simp [hp'])) w.st s harm h1
        exact ⟨this.1, this.2.trans haddr⟩
      · cases h1
  have hnew : PowerOk (State.new addr h0 interval l : State T) := fun h => h
  obtain ⟨h1, h2⟩ := key ins (fun p hp => ⟨hw p.1 p.2 hp, hm p.1 p.2 hp, hc p.1 p.2 hp⟩) _ _ hnew hs
  have hpw : s.consensusPower = false := by
    cases hcp : s.consensusPower with
    | false => rfl
    | true =>
      have := h1 hcp
      rw [h2] at this
      simp only [State.new] at this
      rw [hn] at this; cases this
  exact C35_silent e i s hpw hi

namespace StDemo

/-- A status of the *same* height that drops validator 1. -/
def without (h : Nat) : Status :=
  { height := h, interval := none, timerConfig := none, authorityList := nodes.drop 1 }
def envSame : Env C := { env with commit := fun h _ => some (without h) }

/-- **C35 is false without the hypotheses**: if `commit` answers with a status of the same height whose list
omits the node, the node drops out of its list but keeps its power, and goes on voting. -/
theorem C35_unlisted_votes_counterexample :
    ∃ s : State C, st0.after (commitIns ++ [(envSame, .event (.commit [5]))]) = some s ∧
      s.authority.contains [1] = false ∧
      .transmit [2] (.signedVote (vote 1 7 0 .prevote [6])) ∈
        effects env (.event (.prevoteVote 7 0 [6] none)) s := by
  refine ⟨(st0.after (commitIns ++ [(envSame, .event (.commit [5]))])).getD st0, ?_, ?_, ?_⟩
  · decide +kernel
  · decide +kernel
  · decide +kernel

example : (st0.after [(env, .start),
      (env, .verified (.richStatus (without 9)))]).map (fun s => (s.height, s.consensusPower)) = some (9, false) := by
  decide +kernel

end StDemo

end Overlord
