import Verif.Proofs.Micro
import Verif.Proofs.Collection

/-! Every arm of the State's loop is a sequence of micro-steps. -/

set_option linter.unusedSimpArgs false
set_option linter.unusedVariables false
set_option linter.unusedSectionVars false

namespace Overlord
open M

variable {T : Type} [ContentCodec T] [DecidableEq T]

/-- From `w` to `w'` by micro-steps. -/
inductive Runs (e : Env T) (i : Input T) (w : World T) : World T → Prop
  | refl : Runs e i w w
  | step {w1 : World T} {eff : List (Effect T)} {s' : State T} (h : Runs e i w w1)
      (hm : Micro e i w1.st eff s') : Runs e i w ⟨s', w1.log ++ eff⟩

/-- `m` runs by micro-steps from any world reached so far. -/
abbrev Walks (e : Env T) (i : Input T) (w0 : World T) {α : Type} (m : M T α) (w : World T) : Prop :=
  wp m e w (fun _ => Runs e i w0) (fun _ => Runs e i w0)

theorem Runs.step0 {e : Env T} {i : Input T} {w0 : World T} {s : State T} {l : List (Effect T)}
    {s' : State T} (h : Runs e i w0 ⟨s, l⟩) (hm : Micro e i s [] s') : Runs e i w0 ⟨s', l⟩ := by
  have := Runs.step h hm
  simpa using this

theorem Runs.stepTo {e : Env T} {i : Input T} {w0 : World T} {s : State T} {l l' : List (Effect T)}
    {eff : List (Effect T)} {s' : State T} (h : Runs e i w0 ⟨s, l⟩) (hm : Micro e i s eff s')
    (hl : l' = l ++ eff) : Runs e i w0 ⟨s', l'⟩ := by
  subst hl; exact Runs.step h hm

/-- The simp set that runs handlers. -/
syntax "wps" ("[" Lean.Parser.Tactic.simpLemma,* "]")? : tactic
macro_rules
  | `(tactic| wps) => `(tactic| simp only [wp_bind, wp_pure, wp_fail, wp_get, wp_ask, wp_modify, wp_emit,
      wp_lift, wp_some, wp_ite, wp_logged])
  | `(tactic| wps [$ls,*]) => `(tactic| simp only [wp_bind, wp_pure, wp_fail, wp_get, wp_ask, wp_modify,
      wp_emit, wp_lift, wp_some, wp_ite, wp_logged, $ls,*])

theorem getQcById_setQc (c : VoteCollector) (qc : AggregatedVote) :
    (c.setQc qc).getQcById qc.height qc.round qc.voteType = .ok qc := by
  unfold VoteCollector.getQcById VoteCollector.setQc VoteRoundCollector.setQc
  simp only [AMap.get?_insert_self, Option.bind_some]
  unfold QuorumCertificate.set QuorumCertificate.get
  cases h : qc.voteType <;> rfl

theorem walk_verifyAddress {e : Env T} {w : World T} {Q} {E} (a : Address)
    (hE : ¬ w.st.authority.contains a = true → E .invalidAddress w)
    (hQ : w.st.authority.contains a = true → Q () w) :
    wp (verifyAddress a) e w Q E := by
  unfold verifyAddress; wps
  exact ⟨hQ, hE⟩

theorem walk_aggVote {e : Env T} {i : Input T} {w0 w : World T} (h : Runs e i w0 w)
    {qc : AggregatedVote} (hi : QcInput i w.st qc) : Walks e i w0 (handleAggregatedVote qc) w := by
  obtain ⟨s, l⟩ := w
  unfold Walks handleAggregatedVote
  wps
  refine ⟨fun _ => h, fun h1 => ⟨fun h2 => ⟨fun h3 => ?_, fun _ => h⟩, fun h2 => ⟨fun _ => h, fun h3 =>
    ⟨fun _ => h, fun h4 => ?_⟩⟩⟩⟩
  · exact h.step0 (.recvQc s qc hi (.inl ⟨h2, h3.1, h3.2⟩))
  · have he : qc.height = s.height := by omega
    have h5 : Runs e i w0 ⟨{ s with votes := s.votes.setQc qc }, l⟩ := by
      refine h.step0 (.recvQc s qc hi (.inr ⟨he, ?_⟩))
      cases ht : qc.voteType with
      | prevote => left; simp only [ht, true_and] at h3; omega
      | precommit =>
        simp only [ht, true_and, reduceCtorEq, false_and, not_and] at h4 ⊢
        by_cases hb : qc.blockHash = []
        · left; have := h4 hb; omega
        · right; exact hb
    refine ⟨fun _ => h5, fun h6 => ?_⟩
    have hq := getQcById_setQc s.votes qc
    rw [he] at hq
    refine h5.stepTo (Micro.trigQcId _ qc.round qc.voteType qc hq ?_) (by rw [he])
    simp only [not_and, Bool.not_eq_false] at h6
    unfold State.tryGetFullTxs at h6 ⊢
    by_cases hb : qc.blockHash = []
    · simp [hb]
    · exact h6 hb

theorem walk_checkChoke {e : Env T} {i : Input T} {w0 w : World T} (h : Runs e i w0 w)
    (hi : (∃ sc, i = .verified (.signedChoke sc)) ∨ (∃ h r lr, i = .event (.brake h r lr)) ∨ i = .start) :
    Walks e i w0 checkChokeAboveThreshold w := by
  obtain ⟨s, l⟩ := w
  unfold Walks checkChokeAboveThreshold
  wps
  split
  · exact h
  · rename_i round hm
    wps [aggregateSignatures]
    refine ⟨fun _ => h, fun h1 => ⟨fun scs hc => ⟨fun sig ha => ?_, fun _ => h⟩, fun _ => h⟩⟩
    exact h.stepTo (.chokeQuorum s round scs sig hi hm (by omega) hc ha) rfl

theorem walk_aggChoke {e : Env T} {i : Input T} {w0 w : World T} (h : Runs e i w0 w)
    {ac : AggregatedChoke} (hi : ∃ sc, i = .verified (.signedChoke sc) ∧ sc.choke.height = w.st.height ∧
        w.st.round < sc.choke.round ∧ sc.choke.from = .chokeQC ac) :
    Walks e i w0 (handleAggregatedChoke ac) w := by
  obtain ⟨s, l⟩ := w
  unfold Walks handleAggregatedChoke
  wps
  refine ⟨fun _ => h, fun h1 => ?_⟩
  exact h.stepTo (.recvChokeQc s ac hi (by omega)) rfl

theorem walk_signedChoke {e : Env T} {w0 w : World T} {sc : SignedChoke}
    (h : Runs e (.verified (.signedChoke sc)) w0 w) :
    Walks e (.verified (.signedChoke sc)) w0 (handleSignedChoke sc) w := by
  unfold Walks handleSignedChoke
  wps
  refine ⟨fun _ => h, fun h1 => ⟨fun _ => h, fun h2 => ⟨fun h3 => ?_, fun h3 => ?_⟩⟩⟩
  · have h1 : sc.choke.height = w.st.height := Decidable.not_not.1 h1
    split
    · rename_i qc hf
      exact walk_aggVote h (.inr ⟨sc, rfl, h1, h3, .inl hf⟩)
    · rename_i qc hf
      exact walk_aggVote h (.inr ⟨sc, rfl, h1, h3, .inr hf⟩)
    · rename_i qc hf
      exact walk_aggChoke h ⟨sc, rfl, h1, h3, hf⟩
  · obtain ⟨s, l⟩ := w
    exact walk_checkChoke (h.step0 (.recvChoke s sc rfl (Decidable.not_not.1 h1) (by dsimp only at *; omega))) (.inl ⟨sc, rfl⟩)

theorem walk_genQc {e : Env T} {i : Input T} {w0 : World T} {s : State T} {l : List (Effect T)} {ty : VoteType}
    (h : Runs e i w0 ⟨s, l⟩)
    (hi : (∃ h lr, VoteInput i ty h lr ∧ s.isLeader = true) ∨
        ∃ sv, i = .verified (.signedVote sv) ∧ sv.vote.voteType = ty ∧ sv.vote.height = s.height)
    {s0 : State T} (h0 : s0.isFullTransaction = s.isFullTransaction)
    {k : AggregatedVote → Nat × Nat} (hk : ∀ qc, qc.height = s.height → qc.round = s.round →
      k qc = (s.round, s.height)) :
    Walks e i w0 (do
        match ← countVotes ty with
        | none => pure ()
        | some hash =>
          let qc ← generateQc hash ty
          modify fun s => { s with votes := s.votes.setQc qc }
          broadcast (.aggregatedVote qc)
          if s0.tryGetFullTxs hash = false then pure ()
          else emit (.trigger (stTrigger ty.toTrigger hash none (k qc).1 (k qc).2))) ⟨s, l⟩ := by
  unfold Walks countVotes generateQc broadcast aggregateSignatures
  wps
  refine ⟨fun o hc => ?_, fun _ _ => h⟩
  cases o with
  | none => wps; exact h
  | some hash =>
    wps
    refine ⟨fun vs hv => ⟨fun sig ha => ?_, fun _ => h⟩, fun _ _ => h⟩
    have h1 := h.stepTo (.genQc s ty hash vs sig hi hc hv ha) rfl
    refine ⟨fun _ => h1, fun hf => ?_⟩
    rw [hk _ rfl rfl]
    have hq := getQcById_setQc s.votes (mkQc s vs sig hash ty)
    refine h1.stepTo (Micro.trigQcId _ s.round ty (mkQc s vs sig hash ty) hq ?_) rfl
    unfold State.tryGetFullTxs at hf ⊢
    rw [h0] at hf
    exact (Bool.not_eq_false _).mp hf

theorem walk_signedVote {e : Env T} {w0 w : World T} {sv : SignedVote}
    (h : Runs e (.verified (.signedVote sv)) w0 w) :
    Walks e (.verified (.signedVote sv)) w0 (handleSignedVote sv) w := by
  obtain ⟨s, l⟩ := w
  unfold Walks handleSignedVote
  wps
  refine ⟨fun _ => h, fun h1 => walk_verifyAddress _ (fun _ => h) fun ha => ?_⟩
  split
  · exact h
  · rename_i x hq
    wps
    have h2 := h.step0 (.recvVote s sv rfl ((Bool.not_eq_true _).mp h1) ha (by
      intro qc hc; rw [hc] at hq; cases hq))
    refine ⟨fun _ => h2, fun h3 => ?_⟩
    have hf := h1
    unfold State.filterMessage at hf
    have he : sv.vote.height = s.height := by
      by_cases h4 : sv.vote.height < s.height
      · simp [h4] at hf
      · omega
    have := walk_genQc (ty := sv.vote.voteType) (s0 := s) (k := fun qc => (qc.round, qc.height)) h2
      (.inr ⟨sv, rfl, rfl, he⟩) rfl (by rintro qc h1 h2; simp [h1, h2])
    simp only [Walks, wp_bind] at this
    exact this

theorem walk_voteProcess {e : Env T} {i : Input T} {w0 : World T} {s : State T} {l : List (Effect T)}
    {ty : VoteType} (h : Runs e i w0 ⟨s, l⟩)
    (hi : s.isLeader = true → ∃ h lr, VoteInput i ty h lr) :
    Walks e i w0 (voteProcess ty) ⟨s, l⟩ := by
  unfold Walks voteProcess
  rw [wp_bind, wp_get, wp_ite]
  refine ⟨fun h1 => ?_, fun h1 => ?_⟩
  · split
    · rename_i qc hq
      wps
      exact ⟨fun _ => h, fun hf => h.stepTo (.trigQcId s s.round ty qc hq ((Bool.not_eq_false _).mp hf)) rfl⟩
    · exact h
  · have hl : s.isLeader = true := (Bool.not_eq_false _).mp h1
    obtain ⟨hh, lr, hi⟩ := hi hl
    have := walk_genQc (ty := ty) (s0 := s) (k := fun qc => (s.round, s.height)) h
      (.inl ⟨hh, lr, hi, hl⟩) rfl (fun _ _ _ => rfl)
    exact this

theorem walk_resp {e : Env T} {w0 w : World T} {r : VerifyResp}
    (h : Runs e (.resp r) w0 w) : Walks e (.resp r) w0 (handleResp r) w := by
  obtain ⟨s, l⟩ := w
  unfold Walks handleResp
  wps
  refine ⟨fun _ => h, fun h1 => ?_⟩
  have hh := Decidable.not_not.1 h1
  have h2 := h.step0 (.checked s r rfl hh)
  split
  · rename_i qc hq
    exact h2.stepTo (Micro.trigQcHash _ r.blockHash .precommit qc ⟨r, rfl, rfl, hh⟩ hq (by simp)) rfl
  · split
    · rename_i qc hq
      wps
      exact ⟨fun hr => h2.stepTo (Micro.trigQcHash _ r.blockHash .prevote qc ⟨r, rfl, rfl, hh⟩ hq (fun _ => hr)) rfl,
        fun _ => h2⟩
    · exact h2

/-- What saving does. -/
theorem wp_saveWal {e : Env T} {s : State T} {l : List (Effect T)} {step : Step} {lock : Option (WalLock T)}
    {Q : Unit → World T → Prop} {E : Err → World T → Prop}
    (h0 : encWalInfo (walRec s step lock) = none → E .panic ⟨s, l⟩)
    (h1 : ∀ b, encWalInfo (walRec s step lock) = some b → e.walSave b = false →
      E .saveWalErr ⟨s, l ++ [.saveWal (walRec s step lock) false]⟩)
    (h2 : ∀ b, encWalInfo (walRec s step lock) = some b → e.walSave b = true →
      Q () ⟨s, l ++ [.saveWal (walRec s step lock) true]⟩) :
    wp (saveWal step lock) e ⟨s, l⟩ Q E := by
  unfold saveWal
  wps
  refine ⟨fun b hb => ⟨fun h => ?_, fun h => ?_⟩, h0⟩
  · rw [h]; exact h2 b hb h
  · have h : e.walSave b = false := (Bool.not_eq_true _).mp h
    rw [h]; exact h1 b hb h

/-- The same with a lock round. -/
theorem wp_saveWalLR {e : Env T} {s : State T} {l : List (Effect T)} {step : Step} {lr : Option Nat}
    {Q : Unit → World T → Prop} {E : Err → World T → Prop}
    (h0 : ∀ x, E x ⟨s, l⟩)
    (h1 : ∀ lock b, WalLockOf s lr lock → encWalInfo (walRec s step lock) = some b → e.walSave b = false →
      E .saveWalErr ⟨s, l ++ [.saveWal (walRec s step lock) false]⟩)
    (h2 : ∀ lock b, WalLockOf s lr lock → encWalInfo (walRec s step lock) = some b → e.walSave b = true →
      Q () ⟨s, l ++ [.saveWal (walRec s step lock) true]⟩) :
    wp (saveWalWithLockRound step lr) e ⟨s, l⟩ Q E := by
  unfold saveWalWithLockRound
  rw [wp_bind, wp_get]
  cases lr with
  | none => exact wp_saveWal (fun _ => h0 _) (fun b => h1 _ b rfl) (fun b => h2 _ b rfl)
  | some r =>
    dsimp only
    split
    · exact h0 _
    · rename_i qc hq
      wps
      refine ⟨fun block hb => ?_, fun _ => h0 _⟩
      have hl : WalLockOf s (some r) (some { lockRound := r, lockVotes := qc, content := block }) :=
        ⟨qc, block, hq, hb, rfl⟩
      exact wp_saveWal (fun _ => h0 _) (fun b => h1 _ b hl) (fun b => h2 _ b hl)

theorem wp_reCheck {e : Env T} {ms : List (OverlordMsg T)} {s : State T} {l : List (Effect T)}
    {Q : Unit → World T → Prop} {E : Err → World T → Prop}
    (h : Q () ⟨s, l ++ ms.map fun m => .spawnVerify m s.authority⟩) : wp (reCheck ms) e ⟨s, l⟩ Q E := by
  unfold reCheck
  induction ms generalizing l with
  | nil => rw [forEach, wp_mpure]; simpa using h
  | cons m ms ih =>
    rw [forEach, wp_mbind]; wps
    apply ih
    simpa using h

/-- What adopting a status does, exactly. -/
theorem wp_gotoNewHeight {e : Env T} {s : State T} {l : List (Effect T)} {status : Status}
    {Q : Unit → World T → Prop} {E : Err → World T → Prop}
    (h0 : status.height ≤ s.height → Q () ⟨s, l⟩)
    (h1 : s.height < status.height → status.isConsensusNode s.address = false →
      Q () ⟨s.moved status, l⟩)
    (h2 : s.height < status.height → status.isConsensusNode s.address = true →
      encWalInfo (walRec (s.moved status) .propose none) = none → E .panic ⟨s.moved status, l⟩)
    (h3 : ∀ b, s.height < status.height → status.isConsensusNode s.address = true →
      encWalInfo (walRec (s.moved status) .propose none) = some b → e.walSave b = false →
      E .saveWalErr ⟨s.moved status, l ++ [.saveWal (walRec (s.moved status) .propose none) false]⟩)
    (h4 : ∀ b, s.height < status.height → status.isConsensusNode s.address = true →
      encWalInfo (walRec (s.moved status) .propose none) = some b → e.walSave b = true →
      Q () ⟨s.adopted e.sh status, l ++
        (.saveWal (walRec (s.moved status) .propose none) true ::
          ((s.recheck e.sh status).map fun m => .spawnVerify m (Authority.update status.authorityList)) ++
          [.trigger (stTrigger (.newHeight status.toSMR) [] none INIT_ROUND status.height)])⟩) :
    wp (gotoNewHeight status) e ⟨s, l⟩ Q E := by
  unfold gotoNewHeight
  wps
  refine ⟨h0, fun hh => ⟨fun hp => h1 (by omega) hp, fun hp => ?_⟩⟩
  have hp := (Bool.not_eq_false _).mp hp
  have hh : s.height < status.height := by omega
  refine wp_saveWal (fun h => h2 hh hp h) (fun b h h' => h3 b hh hp h h') (fun b h h' => ?_)
  have hfin := h4 b hh hp h h'
  unfold State.adopted State.recheck at hfin
  rcases hps : (s.proposals.flush (status.height - 1)).getHeightProposals e.sh status.height with ⟨_ | ps, pc⟩
  · have hpc : pc = s.proposals.flush (status.height - 1) := by
      unfold ProposalCollector.getHeightProposals at hps
      split at hps <;> simp_all
    rcases hvs : (s.votes.flush (status.height - 1)).getHeightVotes e.sh status.height with ⟨_ | ⟨vs, qcs⟩, vc⟩
    · have hvc : vc = s.votes.flush (status.height - 1) := by
        unfold VoteCollector.getHeightVotes at hvs
        split at hvs <;> simp_all
      wps [hps, hvs]
      simpa [hps, hvs, hpc, hvc, State.moved] using hfin
    · wps [hps, hvs]
      apply wp_reCheck
      apply wp_reCheck
      simpa [hps, hvs, hpc, State.moved] using hfin
  · rcases hvs : (s.votes.flush (status.height - 1)).getHeightVotes e.sh status.height with ⟨_ | ⟨vs, qcs⟩, vc⟩
    · have hvc : vc = s.votes.flush (status.height - 1) := by
        unfold VoteCollector.getHeightVotes at hvs
        split at hvs <;> simp_all
      wps [hps, hvs]
      apply wp_reCheck
      wps [hvs]
      simpa [hps, hvs, hvc, State.moved] using hfin
    · wps [hps, hvs]
      apply wp_reCheck
      wps [hvs]
      apply wp_reCheck
      apply wp_reCheck
      simpa [hps, hvs, State.moved] using hfin

theorem walk_gotoNewHeight {e : Env T} {i : Input T} {w0 : World T} {s : State T} {l : List (Effect T)}
    {status : Status} (h : Runs e i w0 ⟨s, l⟩)
    (hi : i = .verified (.richStatus status) ∨ i = .start ∨ ∃ h, i = .event (.commit h)) :
    Walks e i w0 (gotoNewHeight status) ⟨s, l⟩ :=
  wp_gotoNewHeight (fun _ => h) (fun hh hp => h.step0 (.move s status hi hh hp))
    (fun _ _ hn => by cases hn)
    (fun b hh _ h1 h2 => h.stepTo (.moveLost s status ⟨b, h1, h2⟩ hi hh) rfl)
    (fun b hh hp h1 h2 => h.stepTo (.adopt s status ⟨b, h1, h2⟩ hi hh hp) rfl)

theorem wp_verifyProposer {e : Env T} {w : World T} {hh r : Nat} {a : Address}
    {Q : Unit → World T → Prop} {E : Err → World T → Prop} (h0 : ∀ x, E x w)
    (h1 : w.st.authority.contains a = true → w.st.authority.getProposer e.mode hh r = .ok a → Q () w) :
    wp (verifyProposer hh r a) e w Q E := by
  unfold verifyProposer
  rw [wp_bind]
  refine walk_verifyAddress _ (fun _ => h0 _) fun ha => ?_
  wps
  refine ⟨fun p hp => ⟨fun _ => h0 _, fun hne => h1 ha ?_⟩, fun _ _ => h0 _⟩
  rw [hp, Decidable.not_not.1 hne]

theorem walk_signedProposal {e : Env T} {i : Input T} {w0 : World T} {s : State T} {l : List (Effect T)}
    {sp : SignedProposal T} (h : Runs e i w0 ⟨s, l⟩) (hi : ProposalInput i s sp) :
    Walks e i w0 (handleSignedProposal sp) ⟨s, l⟩ := by
  unfold Walks handleSignedProposal
  rw [wp_bind]
  refine wp_verifyProposer (fun _ => h) fun hc hp => ?_
  unfold filterSignedProposal checkBlock
  wps
  refine ⟨fun _ => by simpa using h, fun hf => ⟨fun hl => ⟨fun ps hs => ?_, fun _ _ => h⟩, fun hl => ?_⟩⟩
  · have hf := (Bool.not_eq_true _).mp hf
    simp only [forall_const, not_true_eq_false, false_implies, and_true]
    exact h.step0 (.storeProposal s sp ps hi hc hp hf hl hs)
  · have hf := (Bool.not_eq_true _).mp hf
    have hge : ¬ (sp.proposal.height < s.height) := by
      intro h1; simp [State.filterMessage, h1] at hf
    have hh : sp.proposal.height = s.height := by omega
    have hr : sp.proposal.round = s.round := by omega
    simp only [Bool.false_eq_true, false_implies, not_false_eq_true, true_implies, true_and]
    have h1 := h.step0 (.storeBlock s sp hi hc hp hh hr)
    refine ⟨fun ps hs => ?_, fun _ _ => h1⟩
    exact h1.stepTo (Micro.acceptProposal _ sp ps hi hc hp hh hr (AMap.get?_insert_self ..) hs) (by simp)

theorem wp_isProposer {e : Env T} {s : State T} {l : List (Effect T)}
    {Q : Bool → World T → Prop} {E : Err → World T → Prop} (h0 : ∀ x, E x ⟨s, l⟩)
    (h1 : ∀ p, s.authority.getProposer e.mode s.height s.round = .ok p →
      Q (decide (p = s.address)) ⟨{ s with isLeader := decide (p = s.address), leaderAddress := p }, l⟩) :
    wp isProposer e ⟨s, l⟩ Q E := by
  unfold isProposer
  wps
  refine ⟨fun p hp => ⟨fun hq => ?_, fun hq => ?_⟩, fun _ _ => h0 _⟩
  · have := h1 p hp; simp only [hq, decide_true] at this; exact this
  · have := h1 p hp; simp only [hq, decide_false] at this; exact this

theorem wp_setUpdateFrom {e : Env T} {s : State T} {l : List (Effect T)} {f : FromWhere}
    {Q : Unit → World T → Prop} {E : Err → World T → Prop} (h0 : ∀ x, E x ⟨s, l⟩)
    (h1 : ∀ u, FromOf s f u → Q () ⟨{ s with updateFrom := u }, l⟩) :
    wp (setUpdateFrom f) e ⟨s, l⟩ Q E := by
  unfold setUpdateFrom
  cases f with
  | prevoteQC r => wps; exact ⟨fun qc hq => h1 _ ⟨qc, hq, rfl⟩, fun _ _ => h0 _⟩
  | precommitQC r =>
    wps
    exact ⟨fun hr => h1 _ ⟨_, .inl ⟨hr, rfl⟩, rfl⟩,
      fun _ => ⟨fun qc hq => h1 _ ⟨qc, .inr hq, rfl⟩, fun _ _ => h0 _⟩⟩
  | chokeQC r => wps; exact ⟨fun qc hq => h1 _ ⟨qc, hq, rfl⟩, fun _ => h0 _⟩

end Overlord
