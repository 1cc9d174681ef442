import Verif.Proofs.Early
import Verif.Proofs.Store

/-! What an input does to messages that are cached for a later height. -/

set_option linter.unusedSimpArgs false
set_option linter.unusedVariables false
set_option linter.unusedSectionVars false

namespace Overlord.Chain
open M Spec Early

variable {T : Type} [ContentCodec T] [DecidableEq T]

/-- A cached message stays, unless a certificate for the same slot takes its place. -/
theorem kept_or {e : Env T} {i : Input T} (hi : i ≠ .start) {m : OverlordMsg T}
    {s : State T} {eff : List (Effect T)} {s' : State T} (hm : Micro e i s eff s')
    (h : InCache s m) (hlt : s'.height < hgt m) :
    InCache s' m ∨ ∃ q qc, m = .aggregatedVote q ∧ SameSlot qc q ∧ QcInput i s qc ∧ InCache s' (.aggregatedVote qc) := by
  have hlow : s.height < hgt m := Nat.lt_of_le_of_lt (height_up hi hm) hlt
  cases hm with
  | recvQc qc hq hw =>
    by_cases hs : ∃ q, m = .aggregatedVote q ∧ SameSlot qc q
    · obtain ⟨q, rfl, hs⟩ := hs
      refine .inr ⟨q, qc, rfl, hs, hq, ?_⟩
      show qcId (s.votes.setQc qc) _ _ _ = _
      rw [qcId_setQc, if_pos ⟨rfl, rfl, rfl⟩]
    · exact .inl (keep_qc h qc fun q0 h0 h1 => absurd ⟨q0, h0, h1⟩ hs)
  | genQc ty hash vs sig =>
    refine .inl (keep_qc h _ fun q0 h0 hs => ?_)
    exfalso
    subst h0
    have : s.height = q0.height := hs.1
    simp only [hgt] at hlow
    omega
  | recvVote sv => exact .inl (keep_vote h ..)
  | castVote ty hash lr lock sv =>
    refine .inl ?_
    split
    · exact keep_vote h ..
    · exact h
  | storeProposal sp ps _ _ _ _ _ hs => exact .inl (keep_proposal h hs)
  | acceptProposal sp ps _ _ _ _ _ _ hs => exact .inl (keep_proposal h hs)
  | adopt st _ _ hh =>
    have hlt' : st.height < hgt m := hlt
    refine .inl (inCache_congr ?_ ?_ h)
    · show AMap.get? ((s.votes.flush (st.height - 1)).getHeightVotes e.sh st.height).2 _ = _
      rw [get?_adopted_votes, if_neg (by omega), if_pos (by omega)]
    · show AMap.get? ((s.proposals.flush (st.height - 1)).getHeightProposals e.sh st.height).2 _ = _
      rw [get?_adopted_proposals, if_neg (by omega), if_pos (by omega)]
  | restoreLock w b lock h1 => exact absurd h1 hi
  | _ => exact .inl (inCache_congr rfl rfl h)

/-- A choke of another height, of an earlier or of the current round changes no stored vote and no stored proposal. -/
theorem choke_idle {e : Env T} {s : State T} {sc : SignedChoke} (h : sc.choke.height ≠ s.height ∨ sc.choke.round ≤ s.round) :
    (next e (.verified (.signedChoke sc)) s).votes = s.votes ∧ (next e (.verified (.signedChoke sc)) s).proposals = s.proposals := by
  unfold next
  let Q : World T → Prop := fun w => w.st.votes = s.votes ∧ w.st.proposals = s.proposals
  have : wp (runArm (.verified (.signedChoke sc))) e ⟨s, []⟩ (fun _ w => Q w) (fun _ w => Q w) := by
    unfold runArm handleMsg handleSignedChoke checkChokeAboveThreshold aggregateSignatures
    wps
    have h0 : Q ⟨s, []⟩ := ⟨rfl, rfl⟩
    refine ⟨fun _ => h0, fun _ => ⟨fun _ => h0, fun h1 => ⟨fun _ => h0, fun h2 => ⟨fun h3 => ?_, fun h3 => ?_⟩⟩⟩⟩
    · rcases h with h | h
      · exact absurd h h1
      · omega
    · split
      · exact ⟨rfl, rfl⟩
      · wps
        refine ⟨fun _ => ⟨rfl, rfl⟩, fun _ => ?_⟩
        simp [Q]
  exact wp_post this

/-- The same for a whole input. -/
theorem kept_arm {e : Env T} {i : Input T} {s : State T} {m : OverlordMsg T} (hi : i ≠ .start)
    (hc : ∀ sc, i = .verified (.signedChoke sc) → sc.choke.height ≠ s.height ∨ sc.choke.round ≤ s.round)
    (h : InCache s m) (hlt : (next e i s).height < hgt m) :
    InCache (next e i s) m ∨ ∃ q qc, m = .aggregatedVote q ∧ SameSlot qc q ∧ i = .verified (.aggregatedVote qc) ∧
      InCache (next e i s) (.aggregatedVote qc) := by
  by_cases hch : ∃ sc, i = .verified (.signedChoke sc)
  · obtain ⟨sc, rfl⟩ := hch
    obtain ⟨h1, h2⟩ := choke_idle (e := e) (hc sc rfl)
    exact .inl (inCache_congr (by rw [h1]) (by rw [h2]) h)
  · have := arm_inv (e := e) (i := i) (s := s) (P := fun w => w.st.height < hgt m → InCache w.st m ∨ ∃ q qc, m = .aggregatedVote q ∧
      SameSlot qc q ∧ i = .verified (.aggregatedVote qc) ∧ InCache w.st (.aggregatedVote qc)) (fun _ => .inl h) ?_
    · exact this hlt
    rintro w eff s' h1 hm hlt
    have hlt : s'.height < hgt m := hlt
    have input : ∀ qc, QcInput i w.st qc → i = .verified (.aggregatedVote qc) := by
      rintro qc (h2 | ⟨sc, h2, _⟩)
      · exact h2
      · exact absurd ⟨sc, h2⟩ hch
    rcases h1 (Nat.lt_of_le_of_lt (height_up hi hm) hlt) with h2 | ⟨q, qc, rfl, h3, h4, h5⟩
    · rcases kept_or hi hm h2 hlt with h6 | ⟨q, qc, h6, h7, h8, h9⟩
      · exact .inl h6
      · exact .inr ⟨q, qc, h6, h7, input qc h8, h9⟩
    · have hlt' : s'.height < hgt (.aggregatedVote qc : OverlordMsg T) := by
        show s'.height < qc.height
        rw [h3.1]; exact hlt
      rcases kept_or hi hm h5 hlt' with h6 | ⟨q', qc', h6, h7, h8, h9⟩
      · exact .inr ⟨q, qc, rfl, h3, h4, h6⟩
      · cases h6
        exact .inr ⟨q, qc', rfl, ⟨h7.1.trans h3.1, h7.2.1.trans h3.2.1, h7.2.2.trans h3.2.2⟩, input qc' h8, h9⟩

/-- An early proposal is stored. -/
theorem proposal_cached {e : Env T} {s : State T} {sp : SignedProposal T} (hw : NoWrap s) (hp : s.consensusPower = true)
    (hk : Ahead s sp.proposal.height sp.proposal.round) (ha : s.authority.contains sp.proposal.proposer = true)
    (hl : s.authority.getProposer e.mode sp.proposal.height sp.proposal.round = .ok sp.proposal.proposer)
    (hn : ∀ old, s.proposals.get sp.proposal.height sp.proposal.round = .ok old → old = sp) :
    InCache (next e (.verified (.signedProposal sp)) s) (.signedProposal sp) := by
  have hin : ¬ OutsideWindow s.height s.round sp.proposal.height sp.proposal.round := by
    obtain ⟨h1, h2, h3⟩ := hk
    unfold OutsideWindow
    omega
  have hnone : AMap.get? ((AMap.get? s.proposals sp.proposal.height).getD []) sp.proposal.round = none ∨
      s.proposals.get sp.proposal.height sp.proposal.round = .ok sp := by
    cases hg : AMap.get? s.proposals sp.proposal.height with
    | none => simp [AMap.get?]
    | some rc =>
      cases hg2 : AMap.get? rc sp.proposal.round with
      | none => left; simpa using hg2
      | some old =>
        have h1 : s.proposals.get sp.proposal.height sp.proposal.round = .ok old := by simp [ProposalCollector.get, hg, hg2]
        have := hn old h1
        subst this
        exact .inr h1
  rcases hnone with hnone | hsame
  · have : wp (runArm (.verified (.signedProposal sp))) e ⟨s, []⟩
        (fun _ w => w.st.proposals.get sp.proposal.height sp.proposal.round = .ok sp)
        (fun _ w => w.st.proposals.get sp.proposal.height sp.proposal.round = .ok sp) := by
      unfold runArm handleMsg handleSignedProposal verifyProposer verifyAddress filterSignedProposal
      wps
      have hgt : (sp.proposal.height = s.height ∧ sp.proposal.round ≠ s.round) ∨ sp.proposal.height > s.height :=
        .inr hk.1
      simp [hp, ha, hl, filterMessage_inside hw hin, ProposalCollector.insert, hnone, hgt]
      simp [ProposalCollector.get, AMap.get?_insert_self]
    exact wp_post this
  · exact arm_state_inv (e := e) (i := .verified (.signedProposal sp)) (P := fun s => InCache s (.signedProposal sp)) hsame
      fun s eff s' hs hm => by
        have hmv : ∀ st, ((Input.verified (.signedProposal sp) : Input T) = .verified (.richStatus st) ∨ (Input.verified (.signedProposal sp) : Input T) = .start ∨
            ∃ h, (Input.verified (.signedProposal sp) : Input T) = .event (.commit h)) → False := by
          rintro st (h | h | ⟨x, h⟩) <;> cases h
        cases hm with
        | storeProposal sp ps _ _ _ _ _ h1 => exact keep_proposal hs h1
        | acceptProposal sp ps _ _ _ _ _ _ h1 => exact keep_proposal hs h1
        | recvVote sv => exact keep_vote hs ..
        | recvQc qc hq hw => exact keep_qc hs qc fun _ h => by cases h
        | genQc ty hash vs sig => exact keep_qc hs _ fun _ h => by cases h
        | castVote ty hash lr lock sv =>
          split
          · exact keep_vote hs ..
          · exact hs
        | adopt st _ h => exact (hmv st h).elim
        | restoreLock w b lock h1 => cases h1
        | _ => exact inCache_congr rfl rfl hs

/-- An early certificate is stored. -/
theorem certificate_cached {e : Env T} {s : State T} {qc : AggregatedVote} (hw : NoWrap s) (hp : s.consensusPower = true)
    (hk : s.height < qc.height ∧ qc.height < s.height + 5 ∧ qc.round < 10) :
    InCache (next e (.verified (.aggregatedVote qc)) s) (.aggregatedVote qc) := by
  have hset : qcId (s.votes.setQc qc) qc.height qc.round qc.voteType = some qc := by
    rw [qcId_setQc, if_pos ⟨rfl, rfl, rfl⟩]
  have hmod : (s.height + 5) % U64 = s.height + 5 := Nat.mod_eq_of_lt hw.1
  have : wp (runArm (.verified (.aggregatedVote qc))) e ⟨s, []⟩
      (fun _ w => qcId w.st.votes qc.height qc.round qc.voteType = some qc)
      (fun _ w => qcId w.st.votes qc.height qc.round qc.voteType = some qc) := by
    unfold runArm handleMsg handleAggregatedVote FUTURE_HEIGHT_GAP FUTURE_ROUND_GAP
    wps
    refine ⟨fun h => by simp [hp] at h, fun _ => ⟨fun h => by omega, fun _ => ⟨fun _ => ⟨fun _ => hset,
      fun h => by omega⟩, fun h => by omega⟩⟩⟩
  exact wp_post this

theorem get_insert_inv {c ps : ProposalCollector T} {h r h' r' : Nat} {sp sp' : SignedProposal T}
    (hi : c.insert h' r' sp' = .ok ps) (hg : ps.get h r = .ok sp) : c.get h r = .ok sp ∨ h = h' ∧ r = r' ∧ sp = sp' := by
  have hg' : (AMap.get? ps h).bind (fun rc => AMap.get? rc r) = some sp := by
    unfold ProposalCollector.get at hg
    split at hg
    · rename_i sp1 h1; simp only [Except.ok.injEq] at hg; subst hg; exact h1
    · cases hg
  unfold ProposalCollector.insert at hi
  dsimp only at hi
  split at hi
  · split at hi
    · simp only [Except.ok.injEq] at hi; subst hi; exact .inl hg
    · cases hi
  · rename_i hnone
    simp only [Except.ok.injEq] at hi
    subst hi
    rw [AMap.get?_insert] at hg'
    split at hg'
    · rename_i hh; subst hh
      rw [Option.bind_some, AMap.get?_insert] at hg'
      split at hg'
      · rename_i hr; subst hr
        cases hg'
        exact .inr ⟨rfl, rfl, rfl⟩
      · left
        unfold ProposalCollector.get
        cases h1 : AMap.get? c h' with
        | none => rw [h1] at hg'; simp [AMap.get?] at hg'
        | some rc =>
          rw [h1] at hg'
          simp only [Option.getD_some] at hg'
          rw [Option.bind_some, hg']
    · left
      unfold ProposalCollector.get
      rw [hg']

/-- A proposal of a later height is stored when it arrives. -/
theorem proposal_origin {e : Env T} {i : Input T} {s : State T} {h r : Nat} {sp : SignedProposal T} (hi : i ≠ .start) (hf : Filed s)
    (hlt : (next e i s).height < h) (hg : (next e i s).proposals.get h r = .ok sp) :
    s.proposals.get h r = .ok sp ∨ i = .verified (.signedProposal sp) := by
  have := arm_state_inv (e := e) (i := i) (s := s) (P := fun w => Filed w ∧ (w.height < h → w.proposals.get h r = .ok sp →
    s.proposals.get h r = .ok sp ∨ i = .verified (.signedProposal sp))) ⟨hf, fun _ h => .inl h⟩ ?_
  · exact this.2 hlt hg
  rintro w eff w' ⟨h1, h2⟩ hm
  refine ⟨h1.micro hm, fun h3 h4 => ?_⟩
  have hlow := Nat.lt_of_le_of_lt (height_up hi hm) h3
  have store : ∀ sp' ps h' r', ProposalInput i w sp' → h' = sp'.proposal.height → w.proposals.insert h' r' sp' = .ok ps → ps.get h r = .ok sp →
      s.proposals.get h r = .ok sp ∨ i = .verified (.signedProposal sp) := by
    rintro sp' ps h' r' h5 rfl h6 h7
    rcases get_insert_inv h6 h7 with h8 | ⟨rfl, _, rfl⟩
    · exact h2 hlow h8
    · rcases h5 with h5 | ⟨_, h5⟩
      · exact .inr h5
      · have := (h1.props.get h5).1
        omega
  cases hm with
  | storeProposal sp' ps hi' _ _ _ _ hs => exact store sp' ps _ _ hi' rfl hs h4
  | acceptProposal sp' ps hi' _ _ hh _ _ hs => exact store sp' ps _ _ hi' hh.symm hs h4
  | adopt st _ _ hh =>
    have h3 : st.height < h := h3
    refine h2 hlow ?_
    have h4 : ((w.proposals.flush (st.height - 1)).getHeightProposals e.sh st.height).2.get h r = .ok sp := h4
    unfold ProposalCollector.get at h4 ⊢
    rwa [get?_adopted_proposals, if_neg (by omega), if_pos (by omega)] at h4
  | restoreLock w b lock h1 => exact absurd h1 hi
  | _ => exact h2 hlow h4

theorem inCache_height {s : State T} {m : OverlordMsg T} (h : InCache s m) : m.getHeight? = some (hgt m) := by
  cases m <;> first | rfl | exact h.elim

end Overlord.Chain
