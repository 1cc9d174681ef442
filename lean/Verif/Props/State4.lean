import Verif.Props.State3

/-!
# C38, C40–C42, C46: rich statuses, view change reports, brake, stop, restart
-/

set_option linter.unusedSimpArgs false
set_option linter.unusedVariables false
set_option linter.unusedSectionVars false
set_option linter.unnecessarySeqFocus false

namespace Overlord
open M Spec

variable {T : Type} [ContentCodec T] [DecidableEq T]

/-! ## C38 — a rich status moves the node forward only -/

theorem status_run (e : Env T) (s : State T) (st : Status) {P : Except Err Bool → World T → Prop}
    (h0 : st.height ≤ s.height → P (.ok true) ⟨s, []⟩)
    (h1 : s.height < st.height → st.isConsensusNode s.address = false → P (.ok true) ⟨s.moved st, []⟩)
    (h2 : s.height < st.height → st.isConsensusNode s.address = true →
      encWalInfo (walRec (s.moved st) .propose none) = none → P (.error .panic) ⟨s.moved st, []⟩)
    (h3 : ∀ b, s.height < st.height → st.isConsensusNode s.address = true →
      encWalInfo (walRec (s.moved st) .propose none) = some b → e.walSave b = false →
      P (.ok true) ⟨s.moved st, [.saveWal (walRec (s.moved st) .propose none) false]⟩)
    (h4 : ∀ b, s.height < st.height → st.isConsensusNode s.address = true →
      encWalInfo (walRec (s.moved st) .propose none) = some b → e.walSave b = true →
      P (.ok true) ⟨s.adopted e.sh st,
        (.saveWal (walRec (s.moved st) .propose none) true ::
          ((s.recheck e.sh st).map fun m => .spawnVerify m (Authority.update st.authorityList)) ++
          [.trigger (stTrigger (.newHeight st.toSMR) [] none INIT_ROUND st.height)])⟩) :
    P (runArm (.verified (.richStatus st)) e ⟨s, []⟩).1 (runArm (.verified (.richStatus st)) e ⟨s, []⟩).2 := by
  have : wp (runArm (.verified (.richStatus st))) e ⟨s, []⟩ (fun b w => P (.ok b) w) (fun x w => P (.error x) w) := by
    unfold runArm handleMsg
    wps
    refine ⟨fun h => by simp [OverlordMsg.isRichStatus] at h, fun _ => ?_⟩
    refine wp_gotoNewHeight h0 h1 ?_ ?_ ?_
    · intro a b c
      exact ⟨fun _ => ⟨fun _ => h2 a b c, fun h => absurd rfl h⟩, fun h => absurd rfl h⟩
    · intro b a c d f
      simpa using h3 b a c d f
    · intro b a c d f
      simpa using h4 b a c d f
  unfold wp at this
  split at this <;> rename_i hr <;> rw [hr] <;> exact this

/-- A status for a height not above the node's is ignored. -/
theorem C38_not_higher_ignored (e : Env T) (s : State T) (st : Status) (h : st.height ≤ s.height) :
    next e (.verified (.richStatus st)) s = s ∧ effects e (.verified (.richStatus st)) s = [] := by
  unfold next effects
  refine status_run e s st (P := fun _ w => w.st = s ∧ w.log = []) ?_ ?_ ?_ ?_ ?_ <;> intros <;>
    first | exact ⟨rfl, rfl⟩ | omega

/-- No input moves a running node to a lower height. -/
theorem C38_height_never_decreases (e : Env T) (i : Input T) (s : State T) (hi : i ≠ .start) :
    s.height ≤ (next e i s).height := by
  refine arm_state_inv (P := fun s' => s.height ≤ s'.height) (Nat.le_refl _) ?_
  intro s' eff s'' hp hm
  cases hm with
  | move st _ hh => exact Nat.le_trans hp (Nat.le_of_lt hh)
  | moveLost st _ _ hh => exact Nat.le_trans hp (Nat.le_of_lt hh)
  | adopt st _ _ hh => exact Nat.le_trans hp (Nat.le_of_lt hh)
  | restorePos w b h => exact absurd h hi
  | _ => exact hp

/-- A status for a higher height that lists the node, when the record of the new position can be saved. What is
missing from C38: `C38_not_listed`, `C38_save_failure`. -/
theorem C38_adopted_partial (e : Env T) (s : State T) (st : Status) (h : s.height < st.height)
    (hl : s.address ∈ st.authorityList.map Node.address)
    (hw : ∃ b, encWalInfo (⟨st.height, 0, .propose, none, s.updateFrom⟩ : WalInfo T) = some b ∧
      e.walSave b = true) :
    let s' := next e (.verified (.richStatus st)) s
    let eff := effects e (.verified (.richStatus st)) s
    -- exactly the position, list and interval of the status
    s'.height = st.height ∧ s'.round = 0 ∧ s'.authority = Authority.update st.authorityList ∧
    s'.blockInterval = st.interval.getD s.blockInterval ∧ s'.consensusPower = true ∧
    -- blocks and chokes are dropped, votes and proposals of heights below the previous one are dropped
    (∀ hash, s'.hashWithBlock.get? hash = none) ∧
    (∀ r, s'.chokes.getChokes e.sh r = none ∧ s'.chokes.getQc r = none) ∧
    (∀ h r ty hash, h + 1 < st.height → s'.proposals.get h r = .error .storageErr ∧
      s'.votes.getVoteMap h r ty = .error .storageErr ∧ s'.votes.getQcById h r ty = .error .storageErr ∧
      s'.votes.getQcByHash h hash ty = none) ∧
    -- what is cached for the new height leaves the cache and is verified against the new list
    (∀ r ty hash, s'.proposals.get st.height r = .error .storageErr ∧
      s'.votes.getVoteMap st.height r ty = .error .storageErr ∧
      s'.votes.getQcById st.height r ty = .error .storageErr ∧
      s'.votes.getQcByHash st.height hash ty = none) ∧
    (∀ r sp, s.proposals.get st.height r = .ok sp →
      .spawnVerify (.signedProposal sp) (Authority.update st.authorityList) ∈ eff) ∧
    (∀ r ty a sv, keptVote s st.height r ty a = some sv →
      .spawnVerify (.signedVote sv) (Authority.update st.authorityList) ∈ eff) ∧
    (∀ r ty qc, s.votes.getQcById st.height r ty = .ok qc →
      .spawnVerify (.aggregatedVote qc) (Authority.update st.authorityList) ∈ eff) ∧
    -- other heights are untouched
    (∀ h r ty hash, st.height ≤ h + 1 → h ≠ st.height → s'.proposals.get h r = s.proposals.get h r ∧
      s'.votes.getVoteMap h r ty = s.votes.getVoteMap h r ty ∧ s'.votes.getQcById h r ty = s.votes.getQcById h r ty ∧
      s'.votes.getQcByHash h hash ty = s.votes.getQcByHash h hash ty) ∧
    -- the voting state machine is told last
    triggers eff = [stTrigger (.newHeight st.toSMR) [] none 0 st.height] := by
  have hl' : st.isConsensusNode s.address = true := by simpa [Status.isConsensusNode] using hl
  obtain ⟨b, hb1, hb2⟩ := hw
  have hrun : next e (.verified (.richStatus st)) s = s.adopted e.sh st ∧
      effects e (.verified (.richStatus st)) s =
        (.saveWal (walRec (s.moved st) .propose none) true ::
          ((s.recheck e.sh st).map fun m => .spawnVerify m (Authority.update st.authorityList)) ++
          [.trigger (stTrigger (.newHeight st.toSMR) [] none INIT_ROUND st.height)]) := by
    unfold next effects
    refine status_run e s st (P := fun _ w => w.st = _ ∧ w.log = _) ?_ ?_ ?_ ?_ ?_
    · intros; omega
    · intro _ h1; rw [h1] at hl'; cases hl'
    · intro _ _ h1
      have : encWalInfo (walRec (s.moved st) .propose none) = some b := hb1
      rw [this] at h1; cases h1
    · intro b' _ _ h1 h2
      have : encWalInfo (walRec (s.moved st) .propose none) = some b := hb1
      rw [this] at h1; cases h1; rw [hb2] at h2; cases h2
    · intros; exact ⟨rfl, rfl⟩
  intro s' eff
  simp only [s', eff, hrun.1, hrun.2]
  have gv := get?_adopted_votes e.sh s.votes st.height
  have gp := get?_adopted_proposals e.sh s.proposals st.height
  have memR : ∀ m, m ∈ s.recheck e.sh st → (.spawnVerify m (Authority.update st.authorityList) : Effect T) ∈
      (.saveWal (walRec (s.moved st) .propose none) true ::
          ((s.recheck e.sh st).map fun m => .spawnVerify m (Authority.update st.authorityList)) ++
          [.trigger (stTrigger (.newHeight st.toSMR) [] none INIT_ROUND st.height)]) := by
    intro m hm; simp; exact hm
  refine ⟨rfl, rfl, rfl, rfl, hl', ?_, ?_, ?_, ?_, ?_, ?_, ?_, ?_, ?_⟩
  · intro hash; simp [State.adopted, AMap.get?]
  · intro r; simp [State.adopted, ChokeCollector.getChokes, ChokeCollector.getQc, ChokeCollector.new, AMap.get?]
  · intro k r ty hash hk
    have hk1 : ¬ (k = st.height) := by omega
    have hk2 : ¬ (st.height - 1 ≤ k) := by omega
    simp [State.adopted, ProposalCollector.get, VoteCollector.getVoteMap, VoteCollector.pool,
      VoteCollector.getQcById, VoteCollector.getQcByHash, gv, gp, hk1, hk2]
  · intro r ty hash
    simp [State.adopted, ProposalCollector.get, VoteCollector.getVoteMap, VoteCollector.pool,
      VoteCollector.getQcById, VoteCollector.getQcByHash, gv, gp]
  · intro r sp hsp
    apply memR
    unfold State.recheck ProposalCollector.getHeightProposals ProposalCollector.flush
    rw [AMap.get?_splitOff, if_pos (by omega)]
    unfold ProposalCollector.get at hsp
    split at hsp
    · rename_i sp' h1
      simp only [Except.ok.injEq] at hsp
      subst hsp
      simp only [Option.bind_eq_some_iff] at h1
      obtain ⟨m, h2, h3⟩ := h1
      rw [h2]
      simp only [Option.getD_some, List.mem_append, List.mem_map]
      left; left
      refine ⟨sp', (e.sh.perm _).mem_iff.2 ?_, rfl⟩
      exact List.mem_map.2 ⟨_, AMap.mem_of_get? _ h3, rfl⟩
    · cases hsp
  · intro r ty a sv hsv
    apply memR
    unfold State.recheck VoteCollector.getHeightVotes VoteCollector.flush
    rw [AMap.get?_splitOff, if_pos (by omega)]
    simp only [keptVote, VoteCollector.pool, Option.bind_eq_some_iff, Option.map_eq_some_iff] at hsv
    obtain ⟨vs, ⟨v, h1, rc, h2, rfl⟩, h3⟩ := hsv
    rw [h1]
    simp only [Option.getD_some, List.mem_append, List.mem_map]
    left; right
    refine ⟨sv, List.mem_flatMap.2 ⟨rc, (e.sh.perm _).mem_iff.2 (List.mem_map.2 ⟨_, AMap.mem_of_get? _ h2, rfl⟩), ?_⟩, rfl⟩
    rw [List.mem_append]
    cases ty
    · left; exact (e.sh.perm _).mem_iff.2 (List.mem_map.2 ⟨_, AMap.mem_of_get? _ h3, rfl⟩)
    · right; exact (e.sh.perm _).mem_iff.2 (List.mem_map.2 ⟨_, AMap.mem_of_get? _ h3, rfl⟩)
  · intro r ty qc hqc
    apply memR
    unfold State.recheck VoteCollector.getHeightVotes VoteCollector.flush
    rw [AMap.get?_splitOff, if_pos (by omega)]
    rw [getQcById_iff, qcId] at hqc
    simp only [Option.bind_eq_some_iff] at hqc
    obtain ⟨v, h1, rc, h2, h3⟩ := hqc
    rw [h1]
    simp only [Option.getD_some, List.mem_append, List.mem_map]
    right
    refine ⟨qc, List.mem_flatMap.2 ⟨rc, (e.sh.perm _).mem_iff.2 (List.mem_map.2 ⟨_, AMap.mem_of_get? _ h2, rfl⟩), ?_⟩, rfl⟩
    unfold QuorumCertificate.getAll
    cases ty <;> simp only [QuorumCertificate.get] at h3 <;> simp [h3]
  · intro k r ty hash hk1 hk2
    have hk3 : st.height - 1 ≤ k := by omega
    simp [State.adopted, ProposalCollector.get, VoteCollector.getVoteMap, VoteCollector.pool,
      VoteCollector.getQcById, VoteCollector.getQcByHash, gv, gp, hk2, hk3]
  · simp only [triggers, List.filterMap_cons, List.filterMap_append, List.cons_append, List.filterMap_map,
      List.filterMap_nil, INIT_ROUND]
    simp [Function.comp_def]

/-- A status that does not list the node moves it and takes its power, but — the part that is missing from
C38 — leaves list, interval and cache as they were. -/
theorem C38_not_listed (e : Env T) (s : State T) (st : Status) (h : s.height < st.height)
    (hl : s.address ∉ st.authorityList.map Node.address) :
    next e (.verified (.richStatus st)) s =
      { s with height := st.height, round := 0, consensusPower := false } ∧
    effects e (.verified (.richStatus st)) s = [] :=
  (C35_power_follows_status e s st).2 hl h

/-- If the record cannot be saved, the node has moved to the new height without its list, and the voting state
machine is not told. -/
theorem C38_save_failure (e : Env T) (s : State T) (st : Status) (h : s.height < st.height)
    (hl : s.address ∈ st.authorityList.map Node.address) (hw : ∀ b, e.walSave b = false) :
    (next e (.verified (.richStatus st)) s).height = st.height ∧
    (next e (.verified (.richStatus st)) s).authority = s.authority ∧
    triggers (effects e (.verified (.richStatus st)) s) = [] := by
  have hl' : st.isConsensusNode s.address = true := by simpa [Status.isConsensusNode] using hl
  unfold next effects
  refine status_run e s st (P := fun _ w => w.st.height = _ ∧ w.st.authority = _ ∧ triggers w.log = []) ?_ ?_ ?_ ?_ ?_
  · intros; omega
  · intro _ h1; rw [h1] at hl'; cases hl'
  · intros; exact ⟨rfl, rfl, rfl⟩
  · intros; exact ⟨rfl, rfl, rfl⟩
  · intro b _ _ _ h1; rw [hw b] at h1; cases h1

namespace StDemo

/-- A status for height 9 with one validator less and another interval. -/
def status9 : Status := { height := 9, interval := some 500, timerConfig := none, authorityList := nodes.take 3 }
/-- Votes, a certificate and a proposal for height 9 are cached. -/
def cached : State C := (st0.after [(env, .verified (.signedVote (vote 2 9 0 .prevote [5]))),
  (env, .verified (.aggregatedVote (cert [1, 2, 3] 9 1 .prevote [5]))),
  (env, .verified (.signedProposal (prop ((st0.authority.getProposer .rotation 9 0).toOption.getD []).head! 9 0 [5, 5] [5])))]).getD st0

example : cached ≠ st0 ∧ cached.address ∈ status9.authorityList.map Node.address ∧
    (effects env (.verified (.richStatus status9)) cached).length = 5 ∧
    (next env (.verified (.richStatus status9)) cached).authority = Authority.update (nodes.take 3) ∧
    (next env (.verified (.richStatus status9)) cached).blockInterval = 500 := by decide +kernel

/-- **C38 in full is false**: validator 1 follows a status of height 9 that lists validators 2, 3 and 4, but its own
list still has four entries. -/
theorem C38_list_not_adopted_counterexample :
    let s := next env (.verified (.richStatus (without 9))) st0
    s.height = 9 ∧ s.authority = Authority.update nodes ∧ s.authority ≠ Authority.update (without 9).authorityList := by
  decide +kernel

end StDemo

end Overlord
