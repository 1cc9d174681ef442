import Verif.Props.State2

/-!
# C36–C38: what is cached, which proposals count, rich statuses
-/

set_option linter.unusedSimpArgs false
set_option linter.unusedVariables false
set_option linter.unusedSectionVars false
set_option linter.unnecessarySeqFocus false

namespace Overlord
open M Spec

variable {T : Type} [ContentCodec T] [DecidableEq T]

/-! ## C36 — caching of future messages is bounded to a window -/

theorem filterMessage_outside {s : State T} {h r : Nat} (ho : OutsideWindow s.height s.round h r) :
    s.filterMessage h r = true := by
  unfold State.filterMessage OutsideWindow FUTURE_HEIGHT_GAP FUTURE_ROUND_GAP at *
  have h1 := Nat.mod_le (s.height + 5) U64
  have h2 := Nat.mod_le (s.round + 10) U64
  split
  · rfl
  · split
    · rfl
    · split
      · rfl
      · omega

theorem filterMessage_inside {s : State T} {h r : Nat} (hw : NoWrap s) (ho : ¬ OutsideWindow s.height s.round h r) :
    s.filterMessage h r = false := by
  unfold State.filterMessage OutsideWindow FUTURE_HEIGHT_GAP FUTURE_ROUND_GAP NoWrap at *
  rw [show (s.height + 5) % U64 = s.height + 5 from Nat.mod_eq_of_lt hw.1,
    show (s.round + 10) % U64 = s.round + 10 from Nat.mod_eq_of_lt hw.2]
  rw [if_neg (by omega), if_neg (by omega), if_neg (by omega)]

/-- A vote outside the window is ignored completely. -/
theorem C36_vote_outside_ignored (e : Env T) (s : State T) (sv : SignedVote)
    (ho : OutsideWindow s.height s.round sv.vote.height sv.vote.round) :
    next e (.verified (.signedVote sv)) s = s ∧ effects e (.verified (.signedVote sv)) s = [] := by
  have : wp (runArm (.verified (.signedVote sv))) e ⟨s, []⟩ (fun _ w => w.st = s ∧ w.log = [])
      (fun _ w => w.st = s ∧ w.log = []) := by
    unfold runArm handleMsg handleSignedVote
    wps
    simp [filterMessage_outside ho]
  exact wp_post this

/-- A proposal outside the window is ignored completely. -/
theorem C36_proposal_outside_ignored (e : Env T) (s : State T) (sp : SignedProposal T)
    (ho : OutsideWindow s.height s.round sp.proposal.height sp.proposal.round) :
    next e (.verified (.signedProposal sp)) s = s ∧ effects e (.verified (.signedProposal sp)) s = [] := by
  have : wp (runArm (.verified (.signedProposal sp))) e ⟨s, []⟩ (fun _ w => w.st = s ∧ w.log = [])
      (fun _ w => w.st = s ∧ w.log = []) := by
    unfold runArm handleMsg handleSignedProposal verifyProposer verifyAddress filterSignedProposal
    wps
    simp [filterMessage_outside ho]
  exact wp_post this

/-- A quorum certificate of a lower height, of a height more than four ahead, of a later height with a round
above nine, or a prevote (or nil) certificate of a lower round, is ignored completely. -/
theorem C36_certificate_outside_ignored (e : Env T) (s : State T) (qc : AggregatedVote)
    (ho : qc.height < s.height ∨ s.height + 5 ≤ qc.height ∨ (s.height < qc.height ∧ 10 ≤ qc.round) ∨
      (qc.height = s.height ∧ qc.round < s.round ∧ (qc.voteType = .prevote ∨ qc.blockHash = []))) :
    next e (.verified (.aggregatedVote qc)) s = s ∧ effects e (.verified (.aggregatedVote qc)) s = [] := by
  have hm := Nat.mod_le (s.height + 5) U64
  have : wp (runArm (.verified (.aggregatedVote qc))) e ⟨s, []⟩ (fun _ w => w.st = s ∧ w.log = [])
      (fun _ w => w.st = s ∧ w.log = []) := by
    unfold runArm handleMsg handleAggregatedVote FUTURE_HEIGHT_GAP FUTURE_ROUND_GAP
    wps
    refine ⟨fun _ => by simp, fun _ => ⟨fun _ => by simp, fun h1 => ⟨fun h2 => ⟨fun h3 => by omega,
      fun _ => by simp⟩, fun h2 => ⟨fun _ => by simp, fun h3 => ⟨fun _ => by simp, fun h4 => ?_⟩⟩⟩⟩⟩
    exfalso
    rcases ho with h | h | h | ⟨h5, h6, h7⟩
    · omega
    · omega
    · omega
    · cases ht : qc.voteType with
      | prevote => exact h3 ⟨ht, h6⟩
      | precommit =>
        rcases h7 with h7 | h7
        · rw [ht] at h7; cases h7
        · exact h4 ⟨ht, h7, h6⟩
  exact wp_post this

/-- A choke of another height or of a lower round is ignored completely. -/
theorem C36_choke_outside_ignored (e : Env T) (s : State T) (sc : SignedChoke)
    (ho : sc.choke.height ≠ s.height ∨ sc.choke.round < s.round) :
    next e (.verified (.signedChoke sc)) s = s ∧ effects e (.verified (.signedChoke sc)) s = [] := by
  have : wp (runArm (.verified (.signedChoke sc))) e ⟨s, []⟩ (fun _ w => w.st = s ∧ w.log = [])
      (fun _ w => w.st = s ∧ w.log = []) := by
    unfold runArm handleMsg handleSignedChoke
    wps
    refine ⟨fun _ => by simp, fun _ => ⟨fun _ => by simp, fun h1 => ⟨fun _ => by simp, fun h2 => ?_⟩⟩⟩
    exfalso
    rcases ho with h | h
    · exact h1 h
    · exact h2 h
  exact wp_post this

theorem keptVote_poolD (s : State T) (h r : Nat) (ty : VoteType) (a : Address) :
    keptVote s h r ty a = (poolD s.votes h r ty).byAddress.get? a := by
  unfold keptVote poolD
  cases s.votes.pool h r ty with
  | none => simp [Votes.new, AMap.get?]
  | some v => rfl

/-- Inside the window (and away from the end of the `u64` range) the vote of a validator is kept, unless the
voter's vote or a certificate for this height, round and type is already there. -/
theorem C36_vote_inside_kept (e : Env T) (s : State T) (sv : SignedVote) (hw : NoWrap s)
    (hp : s.consensusPower = true)
    (ho : ¬ OutsideWindow s.height s.round sv.vote.height sv.vote.round)
    (ha : s.authority.contains sv.voter = true)
    (hq : ∀ qc, s.votes.getQcById sv.vote.height sv.vote.round sv.vote.voteType ≠ .ok qc)
    (hn : keptVote s sv.vote.height sv.vote.round sv.vote.voteType sv.voter = none) :
    keptVote (next e (.verified (.signedVote sv)) s) sv.vote.height sv.vote.round sv.vote.voteType sv.voter =
      some sv := by
  rw [keptVote_poolD] at hn ⊢
  have hins : (poolD (s.votes.insertVote sv.vote.blockHash sv sv.voter) sv.vote.height sv.vote.round
      sv.vote.voteType).byAddress.get? sv.voter = some sv := by
    rw [poolD_insertVote]
    simp only [and_self, if_true, Votes.insert, AMap.contains, hn, Option.isSome_none, Bool.false_eq_true, if_false,
      AMap.get?_insert_self]
  have : wp (runArm (.verified (.signedVote sv))) e ⟨s, []⟩
      (fun _ w => (poolD w.st.votes sv.vote.height sv.vote.round sv.vote.voteType).byAddress.get? sv.voter = some sv)
      (fun _ w => (poolD w.st.votes sv.vote.height sv.vote.round sv.vote.voteType).byAddress.get? sv.voter = some sv) := by
    unfold runArm handleMsg handleSignedVote verifyAddress
    wps
    refine ⟨fun h => by simp [hp] at h, fun _ => ⟨fun h => by simp [filterMessage_inside hw ho] at h, fun _ =>
      ⟨fun _ => ?_, fun h => absurd ha h⟩⟩⟩
    split
    · rename_i qc hqc; exact absurd hqc (hq qc)
    · wps
      refine ⟨fun _ => hins, fun _ => ?_⟩
      unfold countVotes generateQc broadcast aggregateSignatures
      wps
      refine ⟨fun o hc => ?_, fun _ _ => by simp [hins]⟩
      cases o with
      | none => wps; exact hins
      | some hash =>
        wps
        simp only [poolD_setQc]
        refine ⟨fun vs hv => ⟨fun sig ha => ⟨fun _ => hins, fun _ => hins⟩, fun _ => by simp [hins]⟩, fun _ _ => by simp [hins]⟩
  exact wp_post this

/-- Nothing is cached for a height more than five ahead. -/
def CacheBounded (s : State T) : Prop :=
  ∀ h, s.height + 5 < h → AMap.get? s.votes h = none ∧ AMap.get? s.proposals h = none

theorem insert_bound {V : Type} {m : AMap Nat V} {k : Nat} {v : V} {b : Nat}
    (hm : ∀ h, b < h → AMap.get? m h = none) (hk : k ≤ b) : ∀ h, b < h → AMap.get? (m.insert k v) h = none := by
  intro h hh
  rw [AMap.get?_insert, if_neg (by omega)]
  exact hm h hh

theorem cache_proposals_insert {c ps : ProposalCollector T} {h r : Nat} {sp : SignedProposal T} {b : Nat}
    (hi : c.insert h r sp = .ok ps) (hm : ∀ h, b < h → AMap.get? c h = none) (hk : h ≤ b) :
    ∀ h, b < h → AMap.get? ps h = none := by
  unfold ProposalCollector.insert at hi
  dsimp only at hi
  split at hi
  · split at hi
    · simp only [Except.ok.injEq] at hi; subst hi; exact hm
    · cases hi
  · simp only [Except.ok.injEq] at hi
    subst hi
    exact insert_bound hm hk

theorem filter_height {s : State T} {h r : Nat} (hf : s.filterMessage h r = false) : h ≤ s.height + 5 := by
  by_cases hh : s.height + 5 < h
  · rw [filterMessage_outside (.inr (.inr (.inl hh)))] at hf; cases hf
  · omega

theorem cache_micro {e : Env T} {i : Input T} (hi : i ≠ .start) {s : State T} {eff : List (Effect T)} {s' : State T}
    (h : CacheBounded s) (hm : Micro e i s eff s') : CacheBounded s' := by
  have hv := fun k hk => (h k hk).1
  have hp := fun k hk => (h k hk).2
  have both : ∀ (s' : State T), s'.height = s.height → (∀ k, s.height + 5 < k → AMap.get? s'.votes k = none) →
      (∀ k, s.height + 5 < k → AMap.get? s'.proposals k = none) → CacheBounded s' := by
    intro s' e1 h1 h2 k hk
    rw [e1] at hk
    exact ⟨h1 k hk, h2 k hk⟩
  have up : ∀ st : Status, s.height < st.height → ∀ k, st.height + 5 < k → s.height + 5 < k := by
    intros; omega
  have hm5 := Nat.mod_le (s.height + 5) U64
  cases hm with
  | recvQc qc hi hw => exact both _ rfl (insert_bound hv (by omega)) hp
  | genQc => exact both _ rfl (insert_bound hv (by simp [mkQc])) hp
  | recvVote sv hi hf => exact both _ rfl (insert_bound hv (filter_height hf)) hp
  | castVote ty hash lr lock sv hsv hi hl hvv =>
    refine both _ rfl ?_ hp
    dsimp only
    split
    · exact insert_bound hv (by simp [hvv])
    · exact hv
  | storeProposal sp ps hi hc hpp hf hl hs => exact both _ rfl hv (cache_proposals_insert hs hp (filter_height hf))
  | acceptProposal sp ps hi hc hpp hh hr hb hs => exact both _ rfl hv (cache_proposals_insert hs hp (by omega))
  | move st hi' hh => exact fun k hk => h k (up st hh k hk)
  | moveLost st hsv hi' hh => exact fun k hk => h k (up st hh k hk)
  | adopt st hsv hi' hh =>
    intro k hk
    have := up st hh k hk
    show AMap.get? ((s.votes.flush (st.height - 1)).getHeightVotes e.sh st.height).2 k = none ∧
      AMap.get? ((s.proposals.flush (st.height - 1)).getHeightProposals e.sh st.height).2 k = none
    rw [get?_adopted_votes, get?_adopted_proposals, hv k this, hp k this]
    simp
  | walLost h => exact absurd h hi
  | restorePos w b h => exact absurd h hi
  | restoreLeader p b h => exact absurd h hi
  | restoreFrom w b h => exact absurd h hi
  | restoreLock w b lock h => exact absurd h hi
  | walTrigger w b h => exact absurd h hi
  | _ => exact both _ rfl hv hp

/-- Over any history after the start (in which `start_with_wal` is not run again): nothing is ever cached for a
height more than five above the node's. -/
theorem C36_cache_bounded (addr : Address) (h0 interval : Nat) (l : List Node) (ins : List (Env T × Input T))
    (s : State T) (hs : (State.new addr h0 interval l).after ins = some s)
    (hi : ∀ e i, (e, i) ∈ ins → i ≠ .start) (h : Nat) (hh : s.height + 5 < h) :
    (∀ r, s.proposals.get h r = .error .storageErr) ∧
    (∀ r ty, s.votes.getVoteMap h r ty = .error .storageErr ∧ s.votes.getQcById h r ty = .error .storageErr) ∧
    (∀ hash ty, s.votes.getQcByHash h hash ty = none) := by
  have key : CacheBounded s := by
    refine (after_inv (P := fun ins s => (∀ e i, (e, i) ∈ ins → i ≠ .start) → CacheBounded s) ?_ ?_ hs) hi
    · intro _ k _; simp [State.new, AMap.get?]
    · intro ins s e i ih hi
      have := ih fun e i h => hi e i (by simp [h])
      exact arm_state_inv (P := CacheBounded) this fun _ _ _ hc hm => cache_micro (hi e i (by simp)) hc hm
  obtain ⟨h1, h2⟩ := key h hh
  simp [ProposalCollector.get, VoteCollector.getVoteMap, VoteCollector.pool, VoteCollector.getQcById,
    VoteCollector.getQcByHash, h1, h2]

namespace StDemo

example : OutsideWindow (st0.height) (st0.round) 13 0 ∧ ¬ OutsideWindow st0.height st0.round 12 10 ∧
    OutsideWindow st0.height st0.round 12 11 ∧ NoWrap st0 := by
  unfold OutsideWindow NoWrap; decide

example : (next env (.verified (.signedVote (vote 2 12 10 .prevote [5]))) st0).votes ≠ st0.votes ∧
    (next env (.verified (.signedVote (vote 2 13 0 .prevote [5]))) st0).votes = st0.votes := by decide +kernel

end StDemo

/-! ## C37 — only the designated proposer's first proposal counts -/

/-- A proposal whose proposer is not a validator, or is not the leader of the proposal's height and round in the
current list, is ignored completely. -/
theorem C37_only_the_leader (e : Env T) (s : State T) (sp : SignedProposal T)
    (hn : s.authority.contains sp.proposal.proposer = false ∨
      s.authority.getProposer e.mode sp.proposal.height sp.proposal.round ≠ .ok sp.proposal.proposer) :
    next e (.verified (.signedProposal sp)) s = s ∧ effects e (.verified (.signedProposal sp)) s = [] := by
  have : wp (runArm (.verified (.signedProposal sp))) e ⟨s, []⟩ (fun _ w => w.st = s ∧ w.log = [])
      (fun _ w => w.st = s ∧ w.log = []) := by
    unfold runArm handleMsg handleSignedProposal verifyProposer verifyAddress
    wps
    refine ⟨fun _ => by simp, fun _ => ⟨fun hc => ⟨fun p hp => ⟨fun _ => by simp, fun hne => ?_⟩, fun _ _ => by simp⟩,
      fun _ => by simp⟩⟩
    exfalso
    rcases hn with h | h
    · rw [hc] at h; cases h
    · exact h (by rw [hp, Decidable.not_not.1 hne])
  exact wp_post this

/-- A proposal that differs from the one kept for its height and round is refused: the proposal kept stays, and
nothing happens outside. The one trace it may leave is its content, see
`C37_refused_content_kept_counterexample`. -/
theorem C37_second_refused_partial (e : Env T) (s : State T) (sp sp' : SignedProposal T)
    (hk : s.proposals.get sp.proposal.height sp.proposal.round = .ok sp') (hne : sp ≠ sp') :
    effects e (.verified (.signedProposal sp)) s = [] ∧
    (next e (.verified (.signedProposal sp)) s = s ∨
      next e (.verified (.signedProposal sp)) s =
        { s with hashWithBlock := s.hashWithBlock.insert sp.proposal.blockHash sp.proposal.content }) := by
  have hins : ∀ ps, s.proposals.insert sp.proposal.height sp.proposal.round sp ≠ .ok ps := by
    intro ps hps
    unfold ProposalCollector.get at hk
    unfold ProposalCollector.insert at hps
    dsimp only at hps
    split at hk
    · rename_i rc hrc
      simp only [Option.bind_eq_some_iff] at hrc
      obtain ⟨m, h1, h2⟩ := hrc
      simp only [Except.ok.injEq] at hk
      subst hk
      rw [h1] at hps
      simp only [Option.getD_some] at hps
      rw [h2] at hps
      dsimp only at hps
      rw [if_neg (fun h => hne (by first | exact h | exact h.symm))] at hps
      cases hps
    · cases hk
  have : wp (runArm (.verified (.signedProposal sp))) e ⟨s, []⟩
      (fun _ w => w.log = [] ∧ (w.st = s ∨ w.st =
        { s with hashWithBlock := s.hashWithBlock.insert sp.proposal.blockHash sp.proposal.content }))
      (fun _ w => w.log = [] ∧ (w.st = s ∨ w.st =
        { s with hashWithBlock := s.hashWithBlock.insert sp.proposal.blockHash sp.proposal.content })) := by
    unfold runArm handleMsg handleSignedProposal verifyProposer verifyAddress filterSignedProposal
    wps
    refine ⟨fun _ => by simp, fun _ => ⟨fun hc => ⟨fun p hp => ⟨fun _ => by simp, fun hp' => ?_⟩, fun _ _ => by simp⟩,
      fun _ => by simp⟩⟩
    refine ⟨fun _ => by simp, fun hf => ⟨fun hl => ⟨fun ps hps => absurd hps (hins ps), fun _ _ => by simp⟩, fun hl => ?_⟩⟩
    have hf := (Bool.not_eq_true _).mp hf
    have hge : ¬ (sp.proposal.height < s.height) := by
      intro h1; simp [State.filterMessage, h1] at hf
    have hh : sp.proposal.height = s.height := by omega
    have hr : sp.proposal.round = s.round := by omega
    rw [hh, hr] at hins
    simp only [Bool.false_eq_true, false_implies, not_false_eq_true, true_implies, true_and]
    exact ⟨fun ps hps => absurd hps (hins ps), fun _ _ => by simp⟩
  exact wp_post this

/-- What is kept for a height and round never changes to another proposal by handling an input; it can only be
dropped. -/
theorem C37_first_is_kept (e : Env T) (i : Input T) (s : State T) (h r : Nat) (sp : SignedProposal T)
    (hk : s.proposals.get h r = .ok sp) :
    (next e i s).proposals.get h r = .ok sp ∨
    ((∃ st, i = .verified (.richStatus st)) ∨ i = .start ∨ ∃ hash, i = .event (.commit hash)) := by
  by_cases hspec : (∃ st, i = .verified (.richStatus st)) ∨ i = .start ∨ ∃ hash, i = .event (.commit hash)
  · exact .inr hspec
  · left
    have ins : ∀ {c ps : ProposalCollector T} {h' r' : Nat} {sp' : SignedProposal T},
        c.insert h' r' sp' = .ok ps → c.get h r = .ok sp → ps.get h r = .ok sp := by
      intro c ps h' r' sp' hi hg
      unfold ProposalCollector.insert at hi
      dsimp only at hi
      split at hi
      · split at hi
        · simp only [Except.ok.injEq] at hi; subst hi; exact hg
        · cases hi
      · rename_i hn
        simp only [Except.ok.injEq] at hi
        subst hi
        unfold ProposalCollector.get at hg ⊢
        rw [AMap.get?_insert]
        by_cases h1 : h' = h
        · subst h1
          simp only [if_true, Option.bind_some]
          rw [AMap.get?_insert]
          by_cases h2 : r' = r
          · subst h2
            exfalso
            cases h3 : AMap.get? c h' with
            | none => simp [h3] at hg
            | some rc => simp [h3] at hn hg; rw [hn] at hg; simp at hg
          · simp only [h2, if_false]
            cases h3 : AMap.get? c h' with
            | none => simp [h3] at hg
            | some rc => simpa [h3] using hg
        · simpa [h1] using hg
    refine arm_state_inv (P := fun s => s.proposals.get h r = .ok sp) hk ?_
    intro s eff s' hp hm
    cases hm with
    | storeProposal sp' ps hi _ _ _ _ hs => exact ins hs hp
    | acceptProposal sp' ps hi _ _ _ _ _ hs => exact ins hs hp
    | adopt st hsv hi =>
      rcases hi with rfl | rfl | ⟨hh, rfl⟩
      · exact absurd (.inl ⟨_, rfl⟩) hspec
      · exact absurd (.inr (.inl rfl)) hspec
      · exact absurd (.inr (.inr ⟨_, rfl⟩)) hspec
    | _ => exact hp

/-- Every proposal kept was received as a verified message, over any history. -/
theorem C37_kept_was_received (addr : Address) (h0 interval : Nat) (l : List Node) (ins : List (Env T × Input T))
    (s : State T) (hs : (State.new addr h0 interval l).after ins = some s) (h r : Nat) (sp : SignedProposal T)
    (hk : s.proposals.get h r = .ok sp) : ∃ e, (e, .verified (.signedProposal sp)) ∈ ins :=
  (prov_after (prov_new addr h0 interval l) hs).proposals h r sp hk

namespace StDemo

/-- The first proposal of the leader of height 7, round 0 is kept. -/
def kept : State C := next env (.verified (.signedProposal (prop 2 7 0 [5, 5] [5]))) st0

example : kept.proposals.get 7 0 = .ok (prop 2 7 0 [5, 5] [5]) ∧
    st0.authority.getProposer env.mode 7 0 = .ok [2] ∧
    st0.authority.getProposer env.mode 7 0 ≠ .ok (prop 3 7 0 [5, 5] [5]).proposal.proposer := by decide +kernel

/-- **C37 in full is false**: a refused second proposal of the leader, with the same hash and another content,
replaces the content under that hash. -/
theorem C37_refused_content_kept_counterexample :
    kept.proposals.get 7 0 = .ok (prop 2 7 0 [5, 5] [5]) ∧
    kept.hashWithBlock.get? [5] = some [5, 5] ∧
    (next env (.verified (.signedProposal (prop 2 7 0 [6, 6] [5]))) kept).hashWithBlock.get? [5] = some [6, 6] := by
  decide +kernel

end StDemo

end Overlord
