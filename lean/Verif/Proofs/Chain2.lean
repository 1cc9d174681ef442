import Verif.Proofs.Chain
import Verif.Proofs.ChainEarly

/-! From one height to the next. -/

set_option linter.unusedSimpArgs false
set_option linter.unusedVariables false
set_option linter.unusedSectionVars false

namespace Overlord.Chain
open M Spec Good

variable {T : Type} [ContentCodec T] [DecidableEq T]

/-- The trigger that makes the voting state machine go to the next height. -/
def tN (st : Status) (h : Nat) : SMRTrigger := stTrigger (.newHeight st.toSMR) [] none INIT_ROUND h

/-- The order with which it answers. -/
def nri (h : Nat) (st : Status) : SMREvent := .newRoundInfo h INIT_ROUND none none (.precommitQC U64MAX) st.interval st.timerConfig

/-- The node as it will be when the voting state machine has taken up the new height: `new` are the later triggers. -/
def virt (h : Nat) (st : Status) (new : List SMRTrigger) (n : NodeSys T) : NodeSys T :=
  { n with sys := { n.sys with smr := n.sys.smr.gotoNewHeight h, trigQ := new }, stQ := [nri h st] }

/-- The State is at the height of `g'`, the voting state machine has not yet been told. -/
structure Between (g g' : GoodRound T) (P : Option (SignedProposal T)) (q : VoteType → Prop) (a : Address) (D : OverlordMsg T → Prop)
    (L : List (Effect T)) (n : NodeSys T) (old new : List SMRTrigger) (st : Status) : Prop where
  trig : n.sys.trigQ = old ++ tN st g'.height :: new
  ev : n.stQ = []
  up : n.down = false
  smrH : n.sys.smr.height = g.height
  smrR : n.sys.smr.round = g.round
  step : n.sys.smr.step = .commit
  status : st.height = g'.height
  olds : ∀ t ∈ old, t = tP g ∨ ∃ ty, t = tQ g ty
  inn : NodeIn g' P q a D L (virt g'.height st new n)

theorem recheck_form {sh : Shuffle} {s : State T} {st : Status} {m : OverlordMsg T} (hm : m ∈ s.recheck sh st) : m.isRichStatus = false ∧ m ≠ .stop := by
  unfold State.recheck at hm
  rw [List.mem_append, List.mem_append] at hm
  rcases hm with (hm | hm) | hm <;> obtain ⟨x, _, rfl⟩ := List.mem_map.1 hm <;> simp [OverlordMsg.isRichStatus]

/-- The order to commit, answered with the next height: the block is committed, the node adopts the status. -/
theorem ok_commit_next {g : GoodRound T} (hg : g.Ok) {e : Env T} (he : GoodEnv g e) (hE : Encodes T) {P : Option (SignedProposal T)} {s : State T} (hs : Inv g P s)
    (hk : Known g s) (hq : HasQc g s .precommit) {list : List Node} (hm : s.address ∈ list.map Node.address) (hf : Filed s)
    (ha : ∀ c, ∃ st, e.commit g.height c = some st ∧ st.height = g.height + 1 ∧ st.authorityList = list) :
    OkW (handleCommit g.hash) e ⟨s, []⟩ (fun w => ∃ (st : Status) (c : Commit T) (b b' : WalInfo T), st.height = g.height + 1 ∧ st.authorityList = list ∧
      w.st = ({ s with authority := Authority.update list }).adopted e.sh st ∧
      (∀ m ∈ s.recheck e.sh st, m.isRichStatus = false ∧ m ≠ .stop ∧ m.getHeight? = some (g.height + 1)) ∧ c.content = g.block ∧ c.proof.blockHash = g.hash ∧ c.proof.round = g.round ∧
      w.log = [.saveWal b true, .commitCall g.height c (some st)] ++ (.saveWal b' true :: ((s.recheck e.sh st).map fun m => .spawnVerify m (Authority.update list)) ++
        [.trigger (tN st st.height)])) := by
  obtain ⟨q, hq1, hq2⟩ := hs.byV _ hq
  have hq1' : s.votes.getQcByHash s.height g.hash .precommit = some q := by rw [hs.height]; exact hq1
  refine wp_handleCommit ?_ ?_ ?_ ?_
  · intro hn
    obtain ⟨b, hb⟩ := enc_wal hE (commitRec s q g.block)
    have := hn g.block q hk hq1'
    rw [hb] at this; cases this
  · rintro content qc h1 h2 ⟨b, _, h3⟩
    rw [he.saves] at h3; cases h3
  · intro content qc h1 h2 h3 h4
    rw [hs.height] at h4
    obtain ⟨st, h5, _⟩ := ha (mkCommit s g.hash content qc)
    rw [h4] at h5; cases h5
  · intro content qc status h1 h2 h3 h4
    rw [hk] at h1; cases h1
    rw [hq1'] at h2; cases h2
    obtain ⟨st, h5, h6, h7⟩ := ha (mkCommit s g.hash g.block q)
    have h4' := h4
    rw [hs.height, h5] at h4'
    cases h4'
    obtain ⟨h8, l, h9⟩ := he.answers _ _ _ h4
    have hcn : status.isConsensusNode s.address = true := by
      unfold Status.isConsensusNode
      rw [h7, List.any_eq_true]
      obtain ⟨n, h10, h11⟩ := List.mem_map.1 hm
      exact ⟨n, h10, by simp [h11]⟩
    refine ⟨fun x hx => ?_, fun h => absurd h (by omega), fun _ h => ?_, fun _ _ h => ?_, fun _ _ _ => ?_⟩
    · rw [h9] at hx; cases hx
    · rw [hcn] at h; cases h
    · obtain ⟨b, _, h⟩ := h
      rw [he.saves] at h; cases h
    · subst h7
      refine ⟨status, mkCommit s g.hash g.block q, commitRec s q g.block,
        walRec (({ s with authority := Authority.update status.authorityList }).moved status) .propose none, h6, rfl, rfl, ?_, rfl, rfl, hq2.2.1, ?_⟩
      rotate_left
      · rw [← hs.height]; rfl
      · intro m hm
        have hr := (Store.recheck (s := { s with authority := Authority.update status.authorityList }) ⟨hf.props, hf.votes⟩ hm).1
        rw [h6] at hr
        refine ⟨?_, ?_, hr⟩
        · exact (recheck_form hm).1
        · exact (recheck_form hm).2

/-- Nothing is stored for the new height. -/
theorem adopted_empty (sh : Shuffle) (s : State T) (st : Status) :
    (s.adopted sh st).votes.get? st.height = none ∧ (s.adopted sh st).proposals.get? st.height = none := by
  constructor
  · show AMap.get? ((s.votes.flush (st.height - 1)).getHeightVotes sh st.height).2 _ = _
    rw [get?_adopted_votes, if_pos rfl]
  · show AMap.get? ((s.proposals.flush (st.height - 1)).getHeightProposals sh st.height).2 _ = _
    rw [get?_adopted_proposals, if_pos rfl]

/-- The State at the beginning of a height. -/
theorem begin_inv {g' : GoodRound T} (hg : g'.Ok) {P : Option (SignedProposal T)} {s : State T} {sh : Shuffle} {st : Status}
    (hh : st.height = g'.height) (hr : g'.round = INIT_ROUND) (hla : st.authorityList = g'.list) (hl : g'.live s.address = true) (hs : s.stopped = false)
    (hf : s.isFullTransaction.get? g'.hash = none) :
    Inv g' P (s.adopted sh st) ∧ (∀ ty, ¬ HasQc g' (s.adopted sh st) ty) ∧ ∀ sp, (s.adopted sh st).proposals.get g'.height g'.round ≠ .ok sp := by
  obtain ⟨h1, h2⟩ := adopted_empty sh s st
  rw [hh] at h1 h2
  have hqi : ∀ ty qc, (s.adopted sh st).votes.getQcById g'.height g'.round ty ≠ .ok qc := by
    intro ty qc hq
    unfold VoteCollector.getQcById at hq
    rw [h1] at hq
    cases hq
  have hno : ∀ ty, ¬ HasQc g' (s.adopted sh st) ty := fun ty ⟨qc, hq⟩ => hqi ty qc hq
  have hqh : ∀ ty, (s.adopted sh st).votes.getQcByHash g'.height g'.hash ty = none := by
    intro ty
    unfold VoteCollector.getQcByHash
    rw [h1]
    rfl
  have hpool : ∀ ty, poolD (s.adopted sh st).votes g'.height g'.round ty = .new := by
    intro ty
    unfold poolD VoteCollector.pool
    rw [h1]
    rfl
  have hvt : ∀ ty b, voted g' (s.adopted sh st) ty b = false := fun ty b => by unfold voted; rw [hpool]; rfl
  have hpr : ∀ sp, (s.adopted sh st).proposals.get g'.height g'.round ≠ .ok sp := by
    intro sp hp
    unfold ProposalCollector.get at hp
    rw [h2] at hp
    cases hp
  have hfull : ¬ Full g' (s.adopted sh st) := by
    intro h
    have h : (s.adopted sh st).tryGetFullTxs g'.hash = true := h
    unfold State.tryGetFullTxs at h
    rw [if_neg hg.hash] at h
    have : (s.adopted sh st).isFullTransaction.get? g'.hash = none := hf
    rw [this] at h
    cases h
  have hpw : (s.adopted sh st).consensusPower = true := by
    show st.isConsensusNode s.address = true
    unfold Status.isConsensusNode
    rw [hla, List.any_eq_true]
    obtain ⟨n, h10, h11⟩ := List.mem_map.1 (hg.members _ hl)
    exact ⟨n, h10, by simp [h11]⟩
  refine ⟨⟨⟨hh, hl, hpw, hs, ?_, fun ty qc hq => absurd hq (hqi ty qc), fun ty hq => absurd hq (hno ty), ?_, ?_, fun sp hp => absurd hp (hpr sp), ?_,
    fun h => absurd h hfull, fun ty => by rw [hpool]; exact .new .., ?_, ?_, fun _ => ⟨hno, fun ty b _ => hvt ty b⟩⟩,
    fun ty hQ => absurd hQ (quorum_false _ _ fun n _ => hvt ty _)⟩, hno, hpr⟩
  · show Authority.update st.authorityList = _
    rw [hla]
  · intro q hq; rw [hqh] at hq; cases hq
  · intro q hq; rw [hqh] at hq; cases hq
  · intro c hc; cases hc
  · rw [hr]; exact Nat.zero_le _
  · rw [hr]; exact Nat.zero_le _

theorem MsgOk.form {g : GoodRound T} {P : Option (SignedProposal T)} {q : VoteType → Prop} {s : State T} {m : OverlordMsg T} (h : Good.MsgOk g P q s m) :
    m.isRichStatus = false ∧ m ≠ .stop := by
  rcases h with ⟨sp, rfl, _⟩ | ⟨ty, qc, rfl, _⟩ | ⟨sv, rfl, _⟩ | h
  · exact ⟨rfl, by simp⟩
  · exact ⟨rfl, by simp⟩
  · exact ⟨rfl, by simp⟩
  · exact ⟨h.1, h.2.1⟩

/-- The State takes up the order to commit: it is at the next height. -/
theorem enter {g g' : GoodRound T} (hg : g.Ok) (hg' : g'.Ok) (hnext : g'.height = g.height + 1) (hr : g'.round = INIT_ROUND) (hlk : g'.lock = none) (hlive : g'.live = g.live)
    {e : Env T} (he : GoodEnv g e) (hE : Encodes T) {P : Option (SignedProposal T)} {q : VoteType → Prop} {a : Address} {D : OverlordMsg T → Prop} {L : List (Effect T)}
    {n n' : NodeSys T} (h : NodeIn g P q a D L n) (hl : Last n) {x : Hash} {evs : List SMREvent} (hsq : n.stQ = .commit x :: evs) (hf : Filed n.st)
    (ha : ∀ c, ∃ st, e.commit g.height c = some st ∧ st.height = g.height + 1 ∧ st.authorityList = g'.list)
    (hm1 : ∀ m, .broadcast m ∈ L → m.getHeight? ≠ some g'.height) (hm2 : ∀ d m, .transmit d m ∈ L → m.getHeight? ≠ some g'.height)
    (hx : n.act a (.arm .event e none) = some n') :
    ∃ eff st c, n'.log = n.log ++ eff ∧ blocksOf eff = [(g.height, g.block)] ∧ (.commitCall g.height c (some st) ∈ eff ∧ c.content = g.block ∧ c.proof.blockHash = g.hash ∧ c.proof.round = g.round) ∧
      (∀ m, .broadcast m ∉ eff) ∧ (∀ d m, .transmit d m ∉ eff) ∧ n'.st.height = g'.height ∧ n'.st.isFullTransaction = n.st.isFullTransaction ∧
      n'.verifiedQ = n.verifiedQ ∧ (∀ y ∈ n'.verifying, y ∈ n.verifying ∨ y.1.getHeight? = some g'.height) ∧ Filed n'.st ∧
      n'.st = ({ n.st with authority := Authority.update g'.list }).adopted e.sh st ∧ st.height = g'.height ∧
      ∀ P' q' D', (a = g'.leader → P' = none) → n.st.isFullTransaction.get? g'.hash = none →
        (∀ m ∈ n.verifiedQ, m.getHeight? = some g'.height → (∃ sp, m = .signedProposal sp ∧ P' = some sp) ∨
          (∃ ty qc, m = .aggregatedVote qc ∧ GoodQc g' ty qc ∧ q' ty ∧ P' ≠ none) ∨ ∃ sv, m = .signedVote sv ∧ g'.live sv.voter = false) →
        (∀ m, D' m → m.getHeight? = some g'.height ∧ (m ∈ n.verifiedQ ∨ Early.InCache n.st m)) →
        Between g g' P' q' a D' (L ++ eff) n' n.sys.trigQ [] st := by
  have hc := h.core
  obtain ⟨rfl, hstep⟩ := hl [] x evs hsq
  have hev : x = g.hash ∧ HasQc g n.st .precommit ∧ Known g n.st := by
    rcases h.shape with h1 | ⟨nri, post, h1, h2, _⟩
    · exact h1.evs (.commit x) (by rw [hsq]; simp)
    · rw [hsq] at h1; cases h1; exact h2.elim
  obtain ⟨rfl, hq, hk⟩ := hev
  have hmem : n.st.address ∈ g'.list.map Node.address := by
    rw [hc.addr]
    refine hg'.members _ ?_
    rw [hlive]
    have := hc.st.live
    rwa [hc.addr] at this
  obtain ⟨w, hrun, st, c, b, b', k1, k2, k3, k4, k5, k6, k7, k8⟩ := run_commit hg he hc.st.power hc.st.running
    (ok_commit_next hg he hE hc.st hk hq (list := g'.list) hmem hf ha)
  unfold NodeSys.act at hx
  rw [hc.up] at hx
  simp only [Bool.false_eq_true, if_false, NodeSys.take, hsq, Option.some.injEq, hrun] at hx
  have hfl : Filed w.st := by
    have := arm_filed (e := e) (i := .event (.commit g.hash)) hf
    rwa [hrun] at this
  have hh' : st.height = g'.height := by rw [k1, hnext]
  have hb1 : ∀ m, .broadcast m ∉ w.log := by rw [k8]; simp
  have hb2 : ∀ d m, .transmit d m ∉ w.log := by rw [k8]; simp
  have htv : (w.log.filterMap fun x => match x with | .toVerified m => some m | _ => none) = [] := by
    rw [List.filterMap_eq_nil_iff, k8]
    intro y hy
    cases y with
    | toVerified m => simp at hy
    | _ => rfl
  have hck : (w.log.filterMap fun x => match x with | .spawnCheck h r hash b => some (h, r, hash, b) | _ => none) = [] := by
    rw [List.filterMap_eq_nil_iff, k8]
    intro y hy
    cases y with
    | spawnCheck => simp at hy
    | _ => rfl
  have htr : trigsOf w.log = [tN st g'.height] := by
    rw [k8, hh']
    simp [trigsOf, List.filterMap_map, Function.comp_def]
  have hvf : ∀ y ∈ (w.log.filterMap fun x => match x with | .spawnVerify m a => some (m, a) | _ => none),
      y.1.isRichStatus = false ∧ y.1 ≠ .stop ∧ y.1.getHeight? = some g'.height := by
    intro y hy
    obtain ⟨z, hz, hzy⟩ := List.mem_filterMap.1 hy
    cases z with
    | spawnVerify m au =>
      cases hzy
      rw [k8] at hz
      simp only [List.cons_append, List.nil_append, List.mem_cons, List.mem_append, List.mem_map, reduceCtorEq, Effect.spawnVerify.injEq, false_or, List.not_mem_nil, or_false] at hz
      obtain ⟨m', h1, rfl, _⟩ := hz
      rw [hnext]
      exact k4 m' h1
    | _ => cases hzy
  have haddr : w.st.address = a := by rw [k3]; exact hc.addr
  have hht : w.st.height = g'.height := by rw [k3]; exact hh'
  have hfw : w.st.isFullTransaction = n.st.isFullTransaction := by rw [k3]; rfl
  refine ⟨w.log, st, c, ?_, ?_, ⟨?_, k5, k6, k7⟩, hb1, hb2, ?_, ?_, ?_, ?_, ?_, ?_, hh', ?_⟩
  · rw [← hx]; rfl
  · rw [k8]
    simp [blocksOf, List.filterMap_map, Function.comp_def, k5]
  · rw [k8]; simp
  · rw [← hx]; exact hht
  · rw [← hx]; exact hfw
  · rw [← hx]
    show n.verifiedQ ++ _ = _
    exact (congrArg _ htv).trans (List.append_nil _)
  · rw [← hx]
    intro y hy
    rcases List.mem_append.1 hy with hy | hy
    · exact .inl hy
    · exact .inr (hvf y hy).2.2
  · rw [← hx]; exact hfl
  · rw [← hx]; exact k3
  · intro P' q' D' hP hfull hverq hdel
    obtain ⟨i1, i2, i3⟩ := begin_inv (s := { n.st with authority := Authority.update g'.list }) (sh := e.sh) (P := P') hg' hh' hr k2
      (by rw [hlive]; exact hc.st.live) hc.st.running hfull
    rw [← k3] at i1 i2 i3
    subst hx
    have hver : ({ n with stQ := [] }.took none (.ok true, w)).verifiedQ = n.verifiedQ := (congrArg _ htv).trans (List.append_nil _)
    have hchk : ({ n with stQ := [] }.took none (.ok true, w)).checking = n.checking := (congrArg _ hck).trans (List.append_nil _)
    refine ⟨?_, rfl, rfl, hc.smrH, hc.smrR, hstep, hh', ?_, ⟨?_, ?_, ?_⟩⟩
    · show n.sys.trigQ ++ trigsOf w.log = _
      rw [htr]
    · intro t ht
      exact (hc.trigs t ht).2.2.imp id fun ⟨ty, h, _⟩ => ⟨ty, h⟩
    · refine ⟨rfl, haddr, i1, rfl, hr.symm, by simp [virt, Smr.gotoNewHeight], fun _ => ⟨.inl rfl, trivial⟩, fun hc => absurd rfl hc, by simp [virt], ?_, ?_, ?_, ?_,
        fun ty h => absurd h (i2 ty), fun hc => absurd rfl hc, fun hc => (by cases hc), fun h => absurd h (i2 _), fun h => absurd h (i2 _), fun hc => (by cases hc), ?_, ⟨?_, ?_⟩, ?_⟩
      · intro y hy
        have hy : y ∈ ({ n with stQ := [] }.took none (.ok true, w)).checking := hy
        rw [hchk] at hy
        refine .inr ?_
        rcases hc.chk y hy with ⟨h1, _⟩ | h1
        · rw [h1, hnext]; exact Nat.lt_succ_self _
        · omega
      · intro y hy
        refine .inr ?_
        rcases hc.resp y hy with ⟨h1, _⟩ | h1
        · rw [h1, hnext]; exact Nat.lt_succ_self _
        · omega
      · intro m hm
        have hm : m ∈ ({ n with stQ := [] }.took none (.ok true, w)).verifiedQ := hm
        rw [hver] at hm
        obtain ⟨h1, h2⟩ := MsgOk.form (hc.ver m hm)
        by_cases h3 : m.getHeight? = some g'.height
        · rcases hverq m hm h3 with h4 | h4 | ⟨sv, rfl, h4⟩
          · exact .inl h4
          · exact .inr (.inl h4)
          · refine .inr (.inr (.inl ⟨sv, rfl, ?_, fun h5 => by rw [h4] at h5; cases h5⟩))
            show w.st.round = _
            rw [k3, hr]; rfl
        · exact .inr (.inr (.inr ⟨h1, h2, .inl h3⟩))
      · intro y hy
        rcases List.mem_append.1 hy with hy | hy
        · exact hc.vfy y hy
        · exact ⟨(hvf y hy).1, (hvf y hy).2.1⟩
      · intro ty qc hm hgq
        rcases List.mem_append.1 hm with hm | hm
        · exact absurd (congrArg some hgq.1) (hm1 _ hm)
        · exact absurd hm (hb1 _)
      · intro m hm hh
        rcases List.mem_append.1 hm with hm | hm
        · exact absurd hh (hm1 _ hm)
        · exact absurd hm (hb1 _)
      · intro d m hm hh
        rcases List.mem_append.1 hm with hm | hm
        · exact absurd hh (hm2 _ _ hm)
        · exact absurd hm (hb2 _ _)
      · intro m hm
        obtain ⟨h1, h2 | h2⟩ := hdel m hm
        · refine .inr (.inl ?_)
          show m ∈ ({ n with stQ := [] }.took none (.ok true, w)).verifiedQ
          rw [hver]; exact h2
        · refine .inl ⟨(m, Authority.update g'.list), ?_, rfl⟩
          have h3 : m ∈ n.st.recheck e.sh st := Early.recheck_mem e.sh st h2 (by
            rw [inCache_height h2] at h1
            rw [hh']; exact (Option.some.inj h1).symm)
          refine List.mem_append.2 (.inr (List.mem_filterMap.2 ⟨.spawnVerify m (Authority.update g'.list), ?_, rfl⟩))
          show _ ∈ w.log
          rw [k8]
          simp only [List.cons_append, List.nil_append, List.mem_cons, List.mem_append, List.mem_map, reduceCtorEq, Effect.spawnVerify.injEq, false_or, List.not_mem_nil, or_false]
          exact ⟨m, h3, rfl, trivial⟩
    · rintro (⟨⟨sp, hs⟩, _⟩ | ⟨h1, h2⟩)
      · exact absurd hs (i3 sp)
      · exact absurd (hP h1) h2
    · refine .inr ⟨nri g'.height st, [], rfl, ⟨hr.symm, rfl, trivial, .inl rfl, fun _ => ⟨hlk.symm, by simp⟩⟩, hP, by simp⟩

end Overlord.Chain
