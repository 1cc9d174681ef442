import Verif.Proofs.Seeds2

/-! Two runs with different hash seeds: the other handlers and whole runs. -/

set_option linter.unusedSimpArgs false
set_option linter.unusedVariables false
set_option linter.unusedSectionVars false
set_option linter.unnecessarySeqFocus false

namespace Overlord
namespace Seed
open M Spec

variable {T : Type} [ContentCodec T] [DecidableEq T] {I J K : State T → Prop}

theorem bl_setUpdateFrom (f : FromWhere) : Bl Any Any (setUpdateFrom (T := T) f) (setUpdateFrom f) := by
  unfold setUpdateFrom
  refine Bl.get' fun s c u hc hu hi => ?_
  have hmod : ∀ a b, SameReason a b → Bl Any Any (M.modify fun s : State T => { s with updateFrom := a }) (M.modify fun s => { s with updateFrom := b }) := by
    intro a b hab
    refine Bl.modify (fun s s' h _ => ⟨?_, h.2.1, hab⟩) fun _ _ => trivial
    conv_lhs => rw [h.1]
  cases f with
  | prevoteQC r =>
    dsimp only
    exact Bl.bind (.lift _) fun qc => hmod _ _ (SameReason.refl _)
  | precommitQC r =>
    dsimp only
    split
    · exact hmod _ _ (SameReason.refl _)
    · exact Bl.bind (.lift _) fun qc => hmod _ _ (SameReason.refl _)
  | chokeQC r =>
    dsimp only
    rcases getQc_same hc r with ⟨h1, h2⟩ | ⟨x, y, h1, h2, h3⟩
    · rw [h1, h2]; exact .someNone _ _ _
    · rw [h1, h2]; exact .someSome _ _ (hmod _ _ h3)

theorem bl_filterProposal (sp : SignedProposal T) : Bl Any Any (filterSignedProposal sp) (filterSignedProposal sp) := by
  unfold filterSignedProposal
  refine Bl.get' fun s c u hc hu hi => ?_
  dsimp only
  refine Bl.ite (fun _ => .pure _) (fun _ => Bl.ite (fun _ => ?_) (fun _ => .pure _))
  refine Bl.bind (.lift _) fun ps => Bl.bind (modA (fun _ _ _ => rfl) fun _ => ⟨rfl, rfl⟩) fun _ => .pure _

theorem bl_signedProposal (sp : SignedProposal T) : Bl Any Any (handleSignedProposal sp) (handleSignedProposal sp) := by
  unfold handleSignedProposal
  dsimp only
  refine Bl.bind (bl_verifyProposer _ _ _) fun _ => Bl.bind (bl_filterProposal sp) fun b => Bl.ite (fun _ => .pure _) (fun _ => ?_)
  refine Bl.bind (modA (fun _ _ _ => rfl) fun _ => ⟨rfl, rfl⟩) fun _ => ?_
  refine Bl.get' fun s c u hc hu hi => ?_
  dsimp only
  refine Bl.bind (.lift _) fun ps => Bl.bind (modA (fun _ _ _ => rfl) fun _ => ⟨rfl, rfl⟩) fun _ => ?_
  exact Bl.bind Bl.emit' fun _ => bl_checkBlock _ _

theorem bl_proposalParts (lr : Option Nat) (lp : Option Hash) : Bl Any Any (proposalParts (T := T) lr lp) (proposalParts lr lp) := by
  unfold proposalParts
  refine Bl.get' fun s c u hc hu hi => ?_
  dsimp only
  cases lr with
  | none =>
    dsimp only
    refine Bl.ask (fun _ _ => rfl) fun r => Bl.bind Bl.emit' fun _ => Bl.bind (.some! _ _) fun x => ?_
    exact .pure _
  | some r =>
    dsimp only
    refine Bl.bind (.some! _ _) fun hash => Bl.bind (.some! _ _) fun b => ?_
    cases s.votes.getQcById s.height r .prevote with
    | ok qc => exact .pure _
    | error x => exact .fail _

theorem bl_newRound (r : Nat) (lr : Option Nat) (lp : Option Hash) (f : FromWhere) :
    Bl Any Any (handleNewRound (T := T) r lr lp f) (handleNewRound r lr lp f) := by
  unfold handleNewRound
  refine Bl.get' fun s c u hc hu hi => ?_
  dsimp only
  have hv : State.viewChangeReason { s with chokes := c, updateFrom := u } s.round f = s.viewChangeReason s.round f := rfl
  rw [hv]
  split
  all_goals
    first
      | refine Bl.bind (J := Any) (bl_report _ _) fun _ => ?_
      | skip
    refine Bl.bind (modA (fun _ _ _ => rfl) fun _ => ⟨rfl, rfl⟩) fun _ => ?_
    refine Bl.ite (fun _ => .fail _) (fun _ => ?_)
    refine Bl.bind (bl_setUpdateFrom f) fun _ => Bl.bind (bl_saveLock _ _) fun _ => ?_
    refine Bl.bind (bl_isProposer fun _ _ _ _ => trivial) fun b => Bl.ite (fun _ => ?_) (fun _ => ?_)
    · refine Bl.get' fun s1 c1 u1 hc1 hu1 _ => ?_
      dsimp only
      cases s1.proposals.get s1.height s1.round with
      | ok sp => exact bl_signedProposal sp
      | error x => exact .pure _
    · refine Bl.bind (modA (fun _ _ _ => rfl) fun _ => ⟨rfl, rfl⟩) fun _ => Bl.bind (bl_proposalParts _ _) fun x => ?_
      refine Bl.bind (modA (fun _ _ _ => rfl) fun _ => ⟨rfl, rfl⟩) fun _ => ?_
      refine Bl.get' fun s1 c1 u1 hc1 hu1 _ => ?_
      refine Bl.bind (bl_signProposal _) fun sp => Bl.bind Bl.emit' fun _ => Bl.bind Bl.emit' fun _ => bl_checkBlock _ _

theorem Pools.ownVote {s : State T} (h : Pools s) {sv : SignedVote} (hv : sv.voter = s.address) :
    Pools { s with votes := s.votes.insertVote sv.vote.blockHash sv s.address } := by
  have hc : s.authority.contains sv.voter = true := by
    obtain ⟨l, _, he, hm, _⟩ := h
    rw [he, update_contains, hv]
    simpa using hm
  have := h.insertVote hc
  rwa [hv] at this

theorem signVote_out (v : Vote) (e : Env T) (w : World T) (sv : SignedVote) (h : (signVote v e w).1 = .ok sv) :
    sv.voter = w.st.address ∧ sv.vote = v := by
  unfold signVote at h
  simp only [Bind.bind, M.bind, M.get, M.ask, M.some!] at h
  cases hs : e.crypto.sign (e.crypto.hash (encVote v)) with
  | none => rw [hs] at h; cases h
  | some x =>
    rw [hs] at h
    simp only [Pure.pure, M.pure, Except.ok.injEq] at h
    subst h
    exact ⟨rfl, rfl⟩

theorem Bl.getE {β : Type} {k k' : State T → M T β}
    (hk : ∀ s c u, SameChokes s.chokes c → SameReason s.updateFrom u → I s →
      Bl (fun t => t = s) K (k s) (k' { s with chokes := c, updateFrom := u })) :
    Bl I K (M.get >>= k) (M.get >>= k') := by
  intro e sh w w' hp hi hw
  have := hk w.st _ _ hw.1.2.1 hw.1.2.2 hi
  rw [← hw.1.1] at this
  exact this e sh w w' hp rfl hw

theorem Bl.bindF {α β : Type} {F : α → Prop} {m m' : M T α} {k k' : α → M T β} (h : Bl I J m m')
    (hF : ∀ e w a, I w.st → (m e w).1 = .ok a → F a) (hk : ∀ a, F a → Bl J K (k a) (k' a)) :
    Bl I K (m >>= k) (m' >>= k') := by
  intro e sh w w' hp hi hw
  obtain ⟨h1, h2, h3⟩ := h e sh w w' hp hi hw
  have hf := hF e w
  simp only [Bind.bind, M.bind]
  cases hm : m e w with
  | mk r v =>
    cases hm' : m' { e with sh := sh } w' with
    | mk r' v' =>
      rw [hm, hm'] at h1 h2
      rw [hm] at h3 hf
      simp only at h1 h2 h3 hf
      subst h1
      cases r with
      | error x => exact ⟨rfl, h2, fun _ h => by cases h⟩
      | ok a => exact hk a (hf a hi rfl) e sh v v' hp (h3 a rfl) h2

theorem bl_voteEvent (hash : Hash) (ty : VoteType) (lr : Option Nat) :
    Bl Pools Any (handleVoteEvent (T := T) hash ty lr) (handleVoteEvent hash ty lr) := by
  unfold handleVoteEvent
  refine Bl.getE fun s c u hc hu hi => ?_
  dsimp only
  refine Bl.bindF (F := fun sv => sv.voter = s.address ∧ sv.vote = { height := s.height, round := s.round, voteType := ty, blockHash := hash })
    (bl_signVote _) (fun e w sv he h => ?_) fun sv hv => ?_
  · have := signVote_out _ e w sv h
    rwa [he] at this
  refine Bl.bind (bl_saveLock _ _) fun _ => Bl.ite (fun _ => ?_) (fun _ => ?_)
  · refine Bl.bind (J := Pools) (Bl.modify' (fun _ _ _ => rfl) (fun _ => ⟨rfl, rfl⟩) (fun t h => ?_)) fun _ => ?_
    · subst h
      have := Pools.ownVote hi hv.1
      rw [hv.2] at this
      exact this
    · exact Bl.bind Bl.emit' fun _ => bl_voteProcess ty
  · exact Bl.bind (bl_transmit _) fun _ => (bl_voteProcess ty).weaken (fun t h => by rw [h]; exact hi) (fun _ h => h)

theorem sameState_chokes {s s' : State T} (h : SameState s s') {c c' : ChokeCollector} (hc : SameChokes c c') :
    SameState { s with chokes := c } { s' with chokes := c' } := by
  refine ⟨?_, hc, h.2.2⟩
  conv_lhs => rw [h.1]

theorem bl_brake (r : Nat) (lr : Option Nat) : Bl Any Any (handleBrake (T := T) r lr) (handleBrake r lr) := by
  unfold handleBrake
  refine Bl.get' fun s c u hc hu hi => ?_
  dsimp only
  refine Bl.ask (fun _ _ => rfl) fun cr => Bl.ite (fun _ => .fail _) (fun _ => ?_)
  refine Bl.bind (.some! _ _) fun sig => ?_
  have hx : SameChoke { signature := sig, choke := { height := s.height, round := s.round, «from» := s.updateFrom }, address := s.address }
      { signature := sig, choke := { height := s.height, round := s.round, «from» := u }, address := s.address } := ⟨rfl, rfl, rfl, rfl, hu⟩
  refine Bl.bind (J := Any) (Bl.modify (fun s1 s2 h _ => ?_) fun _ _ => trivial) fun _ => ?_
  · have hr : s2.round = s1.round := by rw [h.1]
    refine sameState_chokes h (c := s1.chokes.insert s1.round _) (c' := s2.chokes.insert s2.round _) ?_
    rw [hr]
    exact SameChokes.insert h.2.1 _ hx
  · refine Bl.bind (bl_saveLock _ _) fun _ => ?_
    refine Bl.bind (Bl.emit hx) fun _ => bl_checkChoke fun _ _ _ => trivial

theorem bl_commit (hash : Hash) : Bl Any Any (handleCommit (T := T) hash) (handleCommit hash) := by
  unfold handleCommit
  refine Bl.get' fun s c u hc hu hi => ?_
  dsimp only
  refine Bl.bind (.some! _ _) fun content => Bl.bind (.some! _ _) fun qc => Bl.bind (bl_saveWal _ _) fun _ => ?_
  refine Bl.ask (fun _ _ => rfl) fun r => Bl.bind Bl.emit' fun _ => Bl.bind (.some! _ _) fun status => ?_
  refine Bl.bind (modA (fun _ _ _ => rfl) fun _ => ⟨rfl, rfl⟩) fun _ => ?_
  exact Bl.bind (bl_nextProposer _ _) fun _ => bl_goto status

theorem bl_loadWal : Bl Any Any (loadWal (T := T)) loadWal := by
  unfold loadWal
  refine Bl.ask (fun _ _ => rfl) fun o => ?_
  cases o with
  | none => exact .fail _
  | some o =>
    cases o with
    | none => exact .pure _
    | some b =>
      dsimp only
      cases decWalInfo (T := T) b with
      | ok w => exact .pure _
      | error x => cases x <;> exact .fail _

theorem bl_start : Bl Any Any (startWithWal (T := T)) startWithWal := by
  unfold startWithWal
  refine Bl.get' fun s c u hc hu hi => ?_
  dsimp only
  refine Bl.ite (fun _ => .pure _) (fun _ => Bl.bind bl_loadWal fun o => ?_)
  cases o with
  | none =>
    dsimp only
    refine Bl.ite (fun _ => ?_) (fun _ => .pure _)
    unfold walLost
    exact Bl.get' fun s c u hc hu hi => Bl.emit'
  | some w =>
    dsimp only
    refine Bl.bind (modA (fun _ _ _ => rfl) fun _ => ⟨rfl, rfl⟩) fun _ => Bl.bind (bl_isProposer fun _ _ _ _ => trivial) fun l => ?_
    refine Bl.bind (J := Any) (Bl.modify (fun s1 s2 h _ => ⟨?_, h.2.1, SameReason.refl _⟩) fun _ _ => trivial) fun _ => ?_
    · conv_lhs => rw [h.1]
    cases w.lock with
    | none =>
      dsimp only
      split
      · exact .fail _
      · split
        · exact Bl.bind (bl_brake _ _) fun _ => Bl.emit'
        · exact Bl.emit'
    | some lock =>
      dsimp only
      refine Bl.bind (modA (fun _ _ _ => rfl) fun _ => ⟨rfl, rfl⟩) fun _ => ?_
      split
      · exact bl_commit _
      · split
        · exact Bl.bind (bl_brake _ _) fun _ => Bl.emit'
        · exact Bl.emit'

/-- What is needed to start with: if the node takes part, its pools are in order. -/
def Fit (s : State T) : Prop := s.consensusPower = true → Pools s

theorem bl_msg (m : OverlordMsg T) : Bl Fit Any (handleMsg m) (handleMsg m) := by
  unfold handleMsg
  refine Bl.getE fun s c u hc hu hi => ?_
  dsimp only
  refine Bl.ite (fun _ => (Bl.pure _).top) (fun hn => ?_)
  have any : ∀ {m m' : M T Unit}, Bl Any Any m m' → Bl (fun t => t = s) Any m m' := fun h => h.weaken (fun _ _ => trivial) (fun _ h => h)
  cases m with
  | signedProposal sp => exact any (Bl.logged (bl_signedProposal sp))
  | aggregatedVote av => exact any (Bl.logged (bl_aggregatedVote av))
  | signedVote sv =>
    have hp : s.consensusPower = true := by
      cases h : s.consensusPower with
      | true => rfl
      | false => exact absurd ⟨h, rfl⟩ hn
    exact (Bl.logged (bl_signedVote sv)).weaken (fun t h => by rw [h]; exact hi hp) (fun _ h => h)
  | signedChoke sc => exact any (Bl.logged (bl_signedChoke sc))
  | richStatus rs => exact any (Bl.logged (bl_goto rs))
  | stop => exact Bl.bind Bl.emit' fun _ => modA (fun _ _ _ => rfl) fun _ => ⟨rfl, rfl⟩

theorem bl_event (ev : SMREvent) : Bl Pools Any (handleEvent (T := T) ev) (handleEvent ev) := by
  unfold handleEvent
  have any : ∀ {m m' : M T Unit}, Bl Any Any m m' → Bl Pools Any m m' := fun h => h.weaken (fun _ _ => trivial) (fun _ h => h)
  cases ev with
  | newRoundInfo h r lr lp f a b => exact any (Bl.logged (bl_newRound r lr lp f))
  | prevoteVote a b hash lr => exact Bl.logged (bl_voteEvent hash .prevote lr)
  | precommitVote a b hash lr => exact Bl.logged (bl_voteEvent hash .precommit lr)
  | commit hash => exact any (Bl.logged (bl_commit hash))
  | brake h r lr =>
    refine any (Bl.get' fun s c u hc hu hi => ?_)
    exact Bl.ite (fun _ => .pure _) (fun _ => Bl.logged (bl_brake r lr))
  | stop => exact .fail _

theorem bl_arm (i : Input T) : Bl Fit Any (runArm i) (runArm i) := by
  unfold runArm
  have any : ∀ {I : State T → Prop} {m m' : M T Unit}, Bl Any Any m m' → Bl I Any m m' := fun h => h.weaken (fun _ _ => trivial) (fun _ h => h)
  cases i with
  | start => exact Bl.bind (any (Bl.logged bl_start)) fun _ => .pure _
  | raw m =>
    dsimp only
    refine Bl.ite (fun _ => Bl.bind Bl.emit' fun _ => (Bl.pure _).top) (fun _ => ?_)
    cases m.getHeight? with
    | none => exact .fail _
    | some h =>
      dsimp only
      refine Bl.get' fun s c u hc hu hi => ?_
      dsimp only
      refine Bl.ite (fun _ => Bl.bind Bl.emit' fun _ => (Bl.pure _).top) (fun _ => Bl.ite (fun _ => Bl.bind Bl.emit' fun _ => (Bl.pure _).top) (fun _ => (Bl.pure _).top))
  | event ev =>
    dsimp only
    refine Bl.getE fun s c u hc hu hi => ?_
    dsimp only
    refine Bl.ite (fun _ => (Bl.pure _).top) (fun _ => Bl.ite (fun _ => (Bl.pure _).top) (fun hn => ?_))
    have hp : s.consensusPower = true := by
      cases h : s.consensusPower with
      | true => rfl
      | false => exact absurd h hn
    exact Bl.bind ((Bl.logged (bl_event ev)).weaken (I' := fun t => t = s) (fun t h => by rw [h]; exact hi hp) (fun _ h => h)) fun _ => .pure _
  | resp r =>
    dsimp only
    refine Bl.get' fun s c u hc hu hi => ?_
    dsimp only
    refine Bl.ite (fun _ => (Bl.pure _).top) (fun _ => Bl.bind (any (Bl.logged (bl_resp r))) fun _ => .pure _)
  | verified m =>
    dsimp only
    exact Bl.bind (Bl.logged (bl_msg m)) fun _ => .pure _

end Seed
end Overlord
