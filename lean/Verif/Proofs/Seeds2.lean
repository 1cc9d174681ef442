import Verif.Proofs.Seeds

/-! Two runs with different hash seeds: the handlers. -/

set_option linter.unusedSimpArgs false
set_option linter.unusedVariables false
set_option linter.unusedSectionVars false
set_option linter.unnecessarySeqFocus false

namespace Overlord
namespace Seed
open M Spec

variable {T : Type} {I J K : State T → Prop}

/-- No condition. -/
abbrev Any : State T → Prop := fun _ => True

theorem modA {f : State T → State T}
    (hf : ∀ s c u, f { s with chokes := c, updateFrom := u } = { f s with chokes := c, updateFrom := u })
    (hg : ∀ s, (f s).chokes = s.chokes ∧ (f s).updateFrom = s.updateFrom) : Bl I Any (M.modify f) (M.modify f) :=
  Bl.modify' hf hg fun _ _ => trivial

theorem bl_voteProcess (ty : VoteType) : Bl Pools Any (voteProcess (T := T) ty) (voteProcess ty) := by
  unfold voteProcess
  refine Bl.get' fun s c u hc hu hi => ?_
  dsimp only
  refine Bl.ite (fun _ => ?_) (fun _ => ?_)
  · cases hq : s.votes.getQcById s.height s.round ty with
    | ok qc => exact Bl.ite (fun _ => (Bl.pure _).top) (fun _ => Bl.emit'.top)
    | error x => exact (Bl.pure _).top
  · refine Bl.bind (bl_countVotes ty) fun o => ?_
    cases o with
    | none => exact (Bl.pure _).top
    | some hash =>
      dsimp only
      refine Bl.bind (bl_generateQc hash ty) fun qc => Bl.bind (modA (fun _ _ _ => rfl) fun _ => ⟨rfl, rfl⟩) fun _ => ?_
      refine Bl.bind (Bl.emit') fun _ => ?_
      exact Bl.ite (fun _ => .pure _) (fun _ => Bl.emit')

theorem Pools.insertVote {s : State T} (h : Pools s) {sv : SignedVote} (ha : s.authority.contains sv.voter = true) :
    Pools { s with votes := s.votes.insertVote sv.vote.blockHash sv sv.voter } := by
  obtain ⟨l, hl, he, hm, hp⟩ := h
  refine ⟨l, hl, he, hm, fun r ty => ?_⟩
  show PoolOk _ _ _ _ (poolD (s.votes.insertVote sv.vote.blockHash sv sv.voter) s.height r ty)
  rw [poolD_insertVote]
  split
  · rename_i h
    refine (hp r ty).insert h.1 h.2.1 h.2.2 ?_
    rw [he, update_contains] at ha
    simpa using ha
  · exact hp r ty

theorem bl_verifyAddress' (a : Address) :
    Bl I (fun s : State T => I s ∧ s.authority.contains a = true) (verifyAddress a) (verifyAddress a) := by
  intro e sh w w' hp hi hw
  have h0 := bl_verifyAddress (I := I) a e sh w w' hp hi hw
  refine ⟨h0.1, h0.2.1, fun x hx => ?_⟩
  have h1 := h0.2.2 x hx
  refine ⟨h1, ?_⟩
  unfold verifyAddress at hx ⊢
  simp only [Bind.bind, M.bind, M.get] at hx ⊢
  split at hx
  · rename_i hc; simp only [hc, if_true]; exact hc
  · cases hx

theorem bl_signedVote (sv : SignedVote) : Bl Pools Any (handleSignedVote (T := T) sv) (handleSignedVote sv) := by
  unfold handleSignedVote
  refine Bl.get' fun s c u hc hu hi => ?_
  dsimp only
  refine Bl.ite (fun _ => (Bl.pure _).top) (fun _ => ?_)
  refine Bl.bind (bl_verifyAddress' sv.voter) fun _ => ?_
  cases hq : s.votes.getQcById sv.vote.height sv.vote.round sv.vote.voteType with
  | ok qc => exact (Bl.pure _).top
  | error x =>
    dsimp only
    refine Bl.bind (J := Pools) (Bl.modify' (fun _ _ _ => rfl) (fun _ => ⟨rfl, rfl⟩) (fun s h => h.1.insertVote h.2)) fun _ => ?_
    refine Bl.ite (fun _ => (Bl.pure _).top) (fun _ => ?_)
    refine Bl.bind (bl_countVotes _) fun o => ?_
    cases o with
    | none => exact (Bl.pure _).top
    | some hash =>
      dsimp only
      refine Bl.bind (bl_generateQc hash _) fun qc => Bl.bind (modA (fun _ _ _ => rfl) fun _ => ⟨rfl, rfl⟩) fun _ => ?_
      refine Bl.bind (Bl.emit') fun _ => ?_
      exact Bl.ite (fun _ => .pure _) (fun _ => Bl.emit')

theorem bl_aggregatedVote (qc : AggregatedVote) : Bl Any Any (handleAggregatedVote (T := T) qc) (handleAggregatedVote qc) := by
  unfold handleAggregatedVote
  refine Bl.get' fun s c u hc hu hi => ?_
  dsimp only
  refine Bl.ite (fun _ => .pure _) (fun _ => Bl.ite (fun _ => ?_) (fun _ => Bl.ite (fun _ => .pure _) (fun _ => Bl.ite (fun _ => .pure _) (fun _ => ?_))))
  · exact Bl.ite (fun _ => modA (fun _ _ _ => rfl) fun _ => ⟨rfl, rfl⟩) (fun _ => .pure _)
  · refine Bl.bind (modA (fun _ _ _ => rfl) fun _ => ⟨rfl, rfl⟩) fun _ => ?_
    exact Bl.ite (fun _ => .pure _) (fun _ => Bl.emit')

theorem modC {f g : ChokeCollector → ChokeCollector} (h : ∀ a b, SameChokes a b → SameChokes (f a) (g b)) :
    Bl I Any (M.modify fun s : State T => { s with chokes := f s.chokes }) (M.modify fun s => { s with chokes := g s.chokes }) := by
  refine Bl.modify (fun s s' hs _ => ?_) fun _ _ => trivial
  obtain ⟨h1, h2, h3⟩ := hs
  refine ⟨?_, h _ _ h2, h3⟩
  conv_lhs => rw [h1]

theorem bl_aggregatedChoke (ac : AggregatedChoke) : Bl Any Any (handleAggregatedChoke (T := T) ac) (handleAggregatedChoke ac) := by
  unfold handleAggregatedChoke
  refine Bl.get' fun s c u hc hu hi => ?_
  dsimp only
  refine Bl.ite (fun _ => .fail _) (fun _ => ?_)
  exact Bl.bind (modC fun a b h => SameChokes.setQc h _ (SameCert.refl _)) fun _ => Bl.emit'

theorem bl_signedChoke (sc : SignedChoke) : Bl Any Any (handleSignedChoke (T := T) sc) (handleSignedChoke sc) := by
  unfold handleSignedChoke
  refine Bl.get' fun s c u hc hu hi => ?_
  dsimp only
  refine Bl.ite (fun _ => .pure _) (fun _ => Bl.ite (fun _ => .pure _) (fun _ => Bl.ite (fun _ => ?_) (fun _ => ?_)))
  · cases sc.choke.from with
    | prevoteQC qc => exact bl_aggregatedVote qc
    | precommitQC qc => exact bl_aggregatedVote qc
    | chokeQC qc => exact bl_aggregatedChoke qc
  · exact Bl.bind (modC fun a b h => SameChokes.insert h _ (SameChoke.refl _)) fun _ => bl_checkChoke fun _ _ _ => trivial

theorem bl_resp (r : VerifyResp) : Bl Any Any (handleResp (T := T) r) (handleResp r) := by
  unfold handleResp
  refine Bl.get' fun s c u hc hu hi => ?_
  dsimp only
  refine Bl.ite (fun _ => .pure _) (fun _ => ?_)
  refine Bl.bind (modA (fun _ _ _ => rfl) fun _ => ⟨rfl, rfl⟩) fun _ => ?_
  cases s.votes.getQcByHash s.height r.blockHash .precommit with
  | some qc => exact Bl.emit'
  | none =>
    dsimp only
    cases s.votes.getQcByHash s.height r.blockHash .prevote with
    | some qc => exact Bl.ite (fun _ => Bl.emit') (fun _ => .pure _)
    | none => exact .pure _

/-! Cached messages -/

theorem reCheck_eq (l : List (OverlordMsg T)) (e : Env T) (w : World T) :
    reCheck l e w = (.ok (), { w with log := w.log ++ l.map fun m => .spawnVerify m w.st.authority }) := by
  unfold reCheck
  induction l generalizing w with
  | nil => simp [M.forEach, M.pure]
  | cons m l ih =>
    have := ih { w with log := w.log ++ [.spawnVerify m w.st.authority] }
    simp only [List.append_assoc, List.singleton_append] at this
    exact this

theorem bl_reCheck {l l' : List (OverlordMsg T)} (h : l.Perm l') : Bl I I (reCheck l) (reCheck l') := by
  intro e sh w w' hp hi hw
  rw [reCheck_eq, reCheck_eq]
  refine ⟨rfl, ⟨hw.1, ?_⟩, fun _ _ => hi⟩
  have ha : w'.st.authority = w.st.authority := by rw [hw.1.1]
  refine SameWork.append hw.2 ?_
  rw [ha]
  exact SameWork.checks _ _ _ h

variable [ContentCodec T]

theorem walInfo_same {v w : WalInfo T} (h : SameRecord v w) : (encWalInfo v = none ↔ encWalInfo w = none) := by
  obtain ⟨h1, _⟩ := h
  rw [h1]
  unfold encWalInfo
  simp

theorem bl_saveWal (step : Step) (lock : Option (WalLock T)) : Bl I I (saveWal step lock) (saveWal step lock) := by
  unfold saveWal
  refine Bl.get' fun s c u hc hu hi => ?_
  dsimp only
  refine Bl.askR (R := fun x y => (∀ b, x b = true) ∧ ∀ b, y b = true) (fun e sh hp => ⟨hp.saves, hp.saves⟩) ?_
  rintro f g ⟨hf, hg⟩
  have hr : SameRecord (T := T) { height := s.height, round := s.round, step, lock, «from» := s.updateFrom }
      { height := s.height, round := s.round, step, lock, «from» := u } := ⟨rfl, hu⟩
  cases he : encWalInfo (T := T) { height := s.height, round := s.round, step, lock, «from» := s.updateFrom } with
  | none =>
    rw [(walInfo_same hr).1 he]
    exact .someNone _ _ _
  | some b =>
    cases he' : encWalInfo (T := T) { height := s.height, round := s.round, step, lock, «from» := u } with
    | none => rw [(walInfo_same hr).2 he'] at he; cases he
    | some b' =>
      refine .someSome _ _ ?_
      rw [hf, hg]
      refine Bl.bind (Bl.emit ⟨hr, rfl⟩) fun _ => ?_
      exact Bl.ite (fun _ => .pure _) (fun _ => .fail _)

theorem bl_saveLock (step : Step) (lr : Option Nat) : Bl I I (saveWalWithLockRound (T := T) step lr) (saveWalWithLockRound step lr) := by
  unfold saveWalWithLockRound
  refine Bl.get' fun s c u hc hu hi => ?_
  dsimp only
  cases lr with
  | none => exact bl_saveWal _ _
  | some r =>
    dsimp only
    cases s.votes.getQcById s.height r .prevote with
    | error x => exact .fail _
    | ok qc =>
      dsimp only
      exact Bl.bind (.some! _ _) fun b => bl_saveWal _ _

theorem bl_signProposal (p : Proposal T) : Bl I I (signProposal p) (signProposal p) := by
  unfold signProposal
  refine Bl.ask (fun _ _ => rfl) fun c => Bl.bind (.some! _ _) fun b => Bl.bind (.some! _ _) fun sig => .pure _

theorem flatMap_congr_perm {α β : Type} {l : List α} {f g : α → List β} (h : ∀ a ∈ l, (f a).Perm (g a)) :
    (l.flatMap f).Perm (l.flatMap g) := by
  induction l with
  | nil => exact .refl _
  | cons a l ih =>
    simp only [List.flatMap_cons]
    exact (h a (by simp)).append (ih fun b hb => h b (by simp [hb]))

theorem adopt_same (sh sh' : Shuffle) (c : VoteCollector) (k : Nat) :
    ((c.getHeightVotes sh k).1 = none ∧ (c.getHeightVotes sh' k).1 = none ∧ c.getHeightVotes sh k = (none, c) ∧ c.getHeightVotes sh' k = (none, c)) ∨
    ∃ vs qs vs' qs' c', c.getHeightVotes sh k = (some (vs, qs), c') ∧ c.getHeightVotes sh' k = (some (vs', qs'), c') ∧ vs.Perm vs' ∧ qs.Perm qs' := by
  unfold VoteCollector.getHeightVotes
  cases AMap.get? c k with
  | none => left; exact ⟨rfl, rfl, rfl, rfl⟩
  | some v =>
    right
    refine ⟨_, _, _, _, _, rfl, rfl, ?_, ?_⟩
    · refine List.Perm.trans (List.Perm.flatMap_right _ ((sh.perm _).trans (sh'.perm _).symm)) ?_
      refine flatMap_congr_perm fun rc _ => ?_
      exact ((sh.perm _).trans (sh'.perm _).symm).append ((sh.perm _).trans (sh'.perm _).symm)
    · exact List.Perm.flatMap_right _ ((sh.perm _).trans (sh'.perm _).symm)

theorem props_same (sh sh' : Shuffle) (c : ProposalCollector T) (k : Nat) :
    (c.getHeightProposals sh k = (none, c) ∧ c.getHeightProposals sh' k = (none, c)) ∨
    ∃ ps ps' c', c.getHeightProposals sh k = (some ps, c') ∧ c.getHeightProposals sh' k = (some ps', c') ∧ ps.Perm ps' := by
  unfold ProposalCollector.getHeightProposals
  cases AMap.get? c k with
  | none => left; exact ⟨rfl, rfl⟩
  | some v => right; exact ⟨_, _, _, rfl, rfl, (sh.perm _).trans (sh'.perm _).symm⟩

theorem bl_goto (status : Status) : Bl Any Any (gotoNewHeight (T := T) status) (gotoNewHeight status) := by
  unfold gotoNewHeight
  refine Bl.get' fun s c u hc hu hi => ?_
  dsimp only
  refine Bl.ite (fun _ => .pure _) (fun _ => ?_)
  refine Bl.bind (modA (fun _ _ _ => rfl) fun _ => ⟨rfl, rfl⟩) fun _ => ?_
  refine Bl.ite (fun _ => .pure _) (fun _ => ?_)
  refine Bl.bind (bl_saveWal _ _) fun _ => ?_
  refine Bl.bind (J := Any) (Bl.modify (fun s1 s2 h _ => ⟨?_, SameChokes.refl _, h.2.2⟩) fun _ _ => trivial) fun _ => ?_
  · conv_lhs => rw [h.1]
  refine Bl.get' fun s1 c1 u1 hc1 hu1 _ => ?_
  dsimp only
  refine Bl.askR (R := fun x y => (x = (none, s1.proposals) ∧ y = (none, s1.proposals)) ∨
    ∃ ps ps' c', x = (some ps, c') ∧ y = (some ps', c') ∧ ps.Perm ps') (fun e sh _ => props_same e.sh sh s1.proposals status.height) ?_
  rintro _ _ (⟨rfl, rfl⟩ | ⟨ps, ps', c', rfl, rfl, h1⟩)
  on_goal 2 =>
    dsimp only
    refine Bl.bind (modA (fun _ _ _ => rfl) fun _ => ⟨rfl, rfl⟩) fun _ => ?_
    refine Bl.bind (bl_reCheck (h1.map _)) fun _ => ?_
  all_goals
    refine Bl.get' fun s2 c2 u2 hc2 hu2 _ => ?_
    dsimp only
    refine Bl.askR (R := fun x y => (x = (none, s2.votes) ∧ y = (none, s2.votes)) ∨
      ∃ vs qs vs' qs' c', x = (some (vs, qs), c') ∧ y = (some (vs', qs'), c') ∧ vs.Perm vs' ∧ qs.Perm qs') (fun e sh _ => ?_) ?_
    · rcases adopt_same e.sh sh s2.votes status.height with h | h
      · exact .inl ⟨h.2.2.1, h.2.2.2⟩
      · exact .inr h
    · rintro _ _ (⟨rfl, rfl⟩ | ⟨vs, qs, vs', qs', c', rfl, rfl, h1, h2⟩)
      · exact Bl.emit'
      · dsimp only
        refine Bl.bind (modA (fun _ _ _ => rfl) fun _ => ⟨rfl, rfl⟩) fun _ => ?_
        refine Bl.bind (bl_reCheck (h1.map _)) fun _ => Bl.bind (bl_reCheck (h2.map _)) fun _ => Bl.emit'

end Seed
end Overlord
