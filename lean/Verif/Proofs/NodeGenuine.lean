import Verif.Proofs.NodeCheck
import Verif.Proofs.LockChain

/-! What a node stores and passes on claims only certificates that can exist (used for C43, C44). -/

set_option linter.unusedSimpArgs false
set_option linter.unusedVariables false
set_option linter.unusedSectionVars false
set_option linter.unnecessarySeqFocus false

namespace Overlord
open M Spec

/-! ## Counting -/

theorem sumWeights32_in {l : List Node} (s : List Address) : ∀ acc w, sumWeights32 (Authority.update l) acc s = .ok w →
    ∀ a ∈ s, a ∈ l.map Node.address := by
  induction s with
  | nil => simp
  | cons b s ih =>
    intro acc w h a ha
    simp only [sumWeights32] at h
    split at h
    · rename_i w' hw
      rcases List.mem_cons.1 ha with rfl | ha
      · refine Decidable.by_contra fun hn => ?_
        unfold Authority.getVoteWeight at hw
        rw [update_weight_none l a hn] at hw
        cases hw
      · exact ih _ _ h a ha
    · cases h

theorem countLoop_some {sh : Shuffle} {au : Authority} {hash : Hash} : ∀ m : List (Hash × List Address),
    countLoop sh au m = .ok (some hash) →
    ∃ s w, (hash, s) ∈ m ∧ sumWeights32 au 0 (sh.run s) = .ok w ∧ (w * 3) % U64 > (au.voteWeightSum * 2) % U64 := by
  intro m
  induction m with
  | nil => intro h; simp [countLoop] at h
  | cons p m ih =>
    obtain ⟨x, s⟩ := p
    intro h
    simp only [countLoop] at h
    split at h
    · cases h
    · rename_i w hw
      split at h
      · rename_i hc; cases h; exact ⟨s, w, by simp, hw, hc⟩
      · obtain ⟨s', w', h1, h2⟩ := ih h; exact ⟨s', w', List.mem_cons_of_mem _ h1, h2⟩

/-- A block that is counted has more than two thirds of the weight behind it. -/
theorem count_sound {V : SignedVote → Prop} {sh : Shuffle} {l : List Node} {c : VoteCollector} {h r : Nat} {ty : VoteType} {hash : Hash}
    (hd : Distinct l) (hz : Sized l) (hp : PoolOk V h r ty (poolD c h r ty))
    (hc : countingVote sh (Authority.update l) c h r ty = .ok (some hash)) :
    ∃ s : List Address, 2 * total l < 3 * weight l (fun a => decide (a ∈ s)) ∧
      ∀ a ∈ s, ∃ sv, V sv ∧ sv.voter = a ∧ sv.vote = ⟨h, r, ty, hash⟩ := by
  unfold countingVote at hc
  rw [getVoteMap_pool] at hc
  split at hc
  · cases hc
  · rename_i m hm
    split at hm
    · cases hm
    · cases hm
      obtain ⟨s, w, h1, h2, h3⟩ := countLoop_some _ hc
      have h1 := (sh.perm _).subset h1
      have hg := AMap.get?_of_mem _ hp.inv.hashNodup h1
      obtain ⟨hn, _⟩ := hp.inv.setNodup _ _ hg
      have hin := sumWeights32_in _ _ _ h2
      have hin' : ∀ a ∈ s, a ∈ l.map Node.address := fun a ha => hin a ((sh.perm s).mem_iff.2 ha)
      rw [sumWeights32_ok l hd _ hin 0 (by decide)] at h2
      have e1 : ((sh.run s).map (weightIn l)).sum = weight l (fun a => decide (a ∈ s)) := by
        rw [sum_perm ((sh.perm s).map _)]; exact sum_weightIn l hd s hn hin'
      rw [e1, Nat.zero_add] at h2
      cases h2
      refine ⟨s, ?_, ?_⟩
      · have hb := total_bound hz
        have hle := weight_le_total l (fun a => decide (a ∈ s))
        have hs := update_voteWeightSum l
        have e2 := Nat.mod_le (weight l (fun a => decide (a ∈ s))) U32
        have hsz : 3 * total l < U64 := hb
        rw [hs, Nat.mod_eq_of_lt (by omega : total l < U64)] at h3
        rw [Nat.mod_eq_of_lt (by omega : total l * 2 < U64)] at h3
        have := Nat.mod_le (weight l (fun a => decide (a ∈ s)) % U32 * 3) U64
        omega
      · intro a ha
        have := (hp.inv.mem hash a).1 (by rw [hg]; exact ha)
        obtain ⟨v, hv, hb⟩ := this
        have := hp.all (a, v) (AMap.mem_of_get? _ hv)
        obtain ⟨a1, a2, a3, a4, a5⟩ := this
        refine ⟨v, a5, a4, ?_⟩
        cases hv' : v.vote with
        | mk x1 x2 x3 x4 => simp only [hv'] at *; subst a1 a2 a3 hb; rfl

/-! ## What is claimed -/

/-- The certificate can exist. -/
def QcIn (B : Certs) (qc : AggregatedVote) : Prop := B qc.voteType qc.height qc.round qc.blockHash

/-- A certificate counted by the validators of a height can exist. -/
def Counts (lists : Nat → List Node) (V : SignedVote → Prop) (B : Certs) : Prop :=
  ∀ ty k r h (s : List Address), 2 * total (lists k) < 3 * weight (lists k) (fun a => decide (a ∈ s)) →
    (∀ a ∈ s, ∃ sv, V sv ∧ sv.voter = a ∧ sv.vote = ⟨k, r, ty, h⟩) → B ty k r h

variable {T : Type} [ContentCodec T] [DecidableEq T]

/-- The lock round of the proposal belongs to a certificate that can exist. -/
def PropIn (B : Certs) (sp : SignedProposal T) : Prop :=
  ∀ l, sp.proposal.lock = some l → ∃ z, B .prevote sp.proposal.height l.lockRound z

/-- The same, for the proposals, votes and certificates of one height. -/
def PropAt (B : Certs) (H : Nat) (sp : SignedProposal T) : Prop := sp.proposal.height = H → PropIn B sp
@[inherit_doc PropAt]
def VoteAt (V : SignedVote → Prop) (H : Nat) (sv : SignedVote) : Prop := sv.vote.height = H → V sv
@[inherit_doc PropAt]
def QcAt (B : Certs) (H : Nat) (qc : AggregatedVote) : Prop := qc.height = H → QcIn B qc

/-- What a message claims is so. -/
def MsgGen (lists : Nat → List Node) (V : SignedVote → Prop) (B : Certs) : OverlordMsg T → Prop
  | .signedVote sv => V sv
  | .aggregatedVote qc => QcIn B qc
  | .signedProposal sp => PropIn B sp
  | .signedChoke sc => ∀ qc, 0 < sc.choke.round → sc.choke.from = .prevoteQC qc ∨ sc.choke.from = .precommitQC qc →
      qc.height = sc.choke.height → QcIn B qc
  | .richStatus st => st.authorityList = lists st.height
  | .stop => True

/-- The reason for a round is a certificate that can exist, or the one made up for the first round. -/
def FromGen (B : Certs) (u : UpdateFrom) : Prop :=
  ∀ qc, u = .prevoteQC qc ∨ u = .precommitQC qc → qc = mockInitQc ∨ QcIn B qc

/-- What effects claim. -/
def EffGen (B : Certs) : Effect T → Prop
  | .trigger t => TrigCert B t
  | .broadcast (.aggregatedVote qc) => QcIn B qc
  | .broadcast (.signedProposal sp) => ∀ l, sp.proposal.lock = some l →
      QcIn B l.lockVotes ∧ l.lockVotes.voteType = .prevote ∧ l.lockVotes.height = sp.proposal.height ∧ l.lockVotes.round = l.lockRound
  | .broadcast (.signedChoke sc) => FromGen B sc.choke.from
  | .broadcast _ => False
  | .transmit _ m => ∃ sv, m = .signedVote sv
  | _ => True

/-- What inputs claim in the state `s`. -/
def InGen (lists : Nat → List Node) (V : SignedVote → Prop) (B : Certs) (s : State T) : Input T → Prop
  | .verified m => m.isRichStatus = true ∨ s.consensusPower = true ∧ m.getHeight? = some s.height → MsgGen lists V B m
  | .event ev => EvOk B ev
  | _ => True

/-- What is stored for the current height is genuine. -/
abbrev GStore (V : SignedVote → Prop) (B : Certs) (s : State T) : Prop := Store (PropAt B s.height) (VoteAt V s.height) (QcAt B s.height) s

/-- What a State has stored, and its list of validators. -/
structure StGen (lists : Nat → List Node) (V : SignedVote → Prop) (B : Certs) (s : State T) : Prop where
  filed : Filed s
  store : s.consensusPower = true → GStore V B s
  auth : s.consensusPower = true → s.authority = Authority.update (lists s.height)
  reason : FromGen B s.updateFrom

/-- What a record claims. -/
def RecGen (B : Certs) (w : WalInfo T) : Prop :=
  ∀ l, w.lock = some l → QcIn B l.lockVotes ∧ l.lockVotes.height = w.height ∧
    (w.step ≠ .commit → l.lockVotes.voteType = .prevote ∧ l.lockVotes.round = l.lockRound) ∧
    (w.step = .commit → l.lockVotes.voteType = .precommit ∧ l.lockVotes.blockHash ≠ [])

/-- What is saved and committed. -/
def ObsGen (B : Certs) : Obs T → Prop
  | .save w => RecGen B w ∧ FromGen B w.from
  | .call k c _ => B .precommit k c.proof.round c.proof.blockHash ∧ c.proof.blockHash ≠ []
  | _ => True

theorem PropIn.mono {B B' : Certs} (hB : ∀ ty k r x, B ty k r x → B' ty k r x) {sp : SignedProposal T} (h : PropIn B sp) : PropIn B' sp :=
  fun l hl => let ⟨z, hz⟩ := h l hl; ⟨z, hB _ _ _ _ hz⟩

theorem FromGen.mono {B B' : Certs} (hB : ∀ ty k r x, B ty k r x → B' ty k r x) {u : UpdateFrom} (h : FromGen B u) : FromGen B' u :=
  fun qc hq => (h qc hq).imp_right (hB _ _ _ _)

theorem FromGen.mock {B : Certs} : FromGen B (.precommitQC mockInitQc) := by
  rintro qc (h | h) <;> cases h
  exact .inl rfl

theorem EffGen.mono {B B' : Certs} (hB : ∀ ty k r x, B ty k r x → B' ty k r x) {x : Effect T} (h : EffGen B x) : EffGen B' x := by
  cases x with
  | trigger t => exact TrigCert.mono hB h
  | broadcast m =>
    cases m with
    | aggregatedVote qc => exact hB _ _ _ _ h
    | signedProposal sp => exact fun l hl => let ⟨a, b⟩ := h l hl; ⟨hB _ _ _ _ a, b⟩
    | signedChoke sc => exact FromGen.mono hB h
    | _ => exact h
  | _ => exact h

theorem MsgGen.mono {lists : Nat → List Node} {V V' : SignedVote → Prop} {B B' : Certs} (hV : ∀ v, V v → V' v)
    (hB : ∀ ty k r x, B ty k r x → B' ty k r x) {m : OverlordMsg T} (h : MsgGen lists V B m) : MsgGen lists V' B' m := by
  cases m with
  | signedVote sv => exact hV _ h
  | aggregatedVote qc => exact hB _ _ _ _ h
  | signedProposal sp => exact PropIn.mono hB h
  | signedChoke sc => exact fun qc h1 h2 h3 => hB _ _ _ _ (h qc h1 h2 h3)
  | _ => exact h

theorem GStore.mono {V V' : SignedVote → Prop} {B B' : Certs} (hV : ∀ v, V v → V' v)
    (hB : ∀ ty k r x, B ty k r x → B' ty k r x) {s : State T} (h : GStore V B s) : GStore V' B' s :=
  Store.mono h (fun _ hx hh => PropIn.mono hB (hx hh)) (fun _ hx hh => hV _ (hx hh)) (fun _ hx hh => hB _ _ _ _ (hx hh))

theorem StGen.mono {lists : Nat → List Node} {V V' : SignedVote → Prop} {B B' : Certs} (hV : ∀ v, V v → V' v)
    (hB : ∀ ty k r x, B ty k r x → B' ty k r x) {s : State T} (h : StGen lists V B s) : StGen lists V' B' s :=
  ⟨h.filed, fun hp => GStore.mono hV hB (h.store hp), h.auth, h.reason.mono hB⟩

theorem RecGen.mono {B B' : Certs} (hB : ∀ ty k r x, B ty k r x → B' ty k r x) {w : WalInfo T} (h : RecGen B w) : RecGen B' w :=
  fun l hl => let ⟨a, b⟩ := h l hl; ⟨hB _ _ _ _ a, b⟩

theorem ObsGen.mono {B B' : Certs} (hB : ∀ ty k r x, B ty k r x → B' ty k r x) {o : Obs T} (h : ObsGen B o) : ObsGen B' o := by
  cases o with
  | save w => exact ⟨RecGen.mono hB h.1, h.2.mono hB⟩
  | call k c r => exact ⟨hB _ _ _ _ h.1, h.2⟩
  | _ => trivial

theorem Store.filed {Pp : SignedProposal T → Prop} {Pv : SignedVote → Prop} {Pq : AggregatedVote → Prop} {s : State T}
    (h : Store Pp Pv Pq s) : Filed s := h.mono (fun _ _ => trivial) (fun _ _ => trivial) (fun _ _ => trivial)

theorem AMap.exists_get?_of_mem {K W : Type} [DecidableEq K] : ∀ (m : AMap K W) {p : K × W}, p ∈ m → ∃ v, AMap.get? m p.1 = some v := by
  intro m
  induction m with
  | nil => intro p h; cases h
  | cons q m ih =>
    intro p h
    obtain ⟨k0, v0⟩ := q
    simp only [AMap.get?]
    split
    · exact ⟨_, rfl⟩
    · rename_i hne
      rcases List.mem_cons.1 h with rfl | h
      · exact absurd rfl hne
      · exact ih h

theorem PoolOk.at {V : SignedVote → Prop} {h r : Nat} {ty : VoteType} {vs : Votes} (hp : PoolOk (VoteAt V h) h r ty vs) : PoolOk V h r ty vs :=
  ⟨hp.inv, fun p hm => let ⟨a, b, c, d, f⟩ := hp.all p hm; ⟨a, b, c, d, f a⟩⟩

/-- Nothing of the new height is left in the collectors. -/
theorem adopted_proposals_ne {sh : Shuffle} {c : ProposalCollector T} {k : Nat} {p : Nat × AMap Nat (SignedProposal T)}
    (h : p ∈ ((c.flush (k - 1)).getHeightProposals sh k).2) : p.1 ≠ k := by
  unfold ProposalCollector.getHeightProposals at h
  split at h
  · have := (List.mem_filter.1 h).2
    simpa using this
  · rename_i hn
    intro hk
    obtain ⟨v, hv⟩ := AMap.exists_get?_of_mem _ h
    rw [hk] at hv
    rw [hv] at hn; cases hn

theorem adopted_votes_ne {sh : Shuffle} {c : VoteCollector} {k : Nat} {p : Nat × VoteRoundCollector}
    (h : p ∈ ((c.flush (k - 1)).getHeightVotes sh k).2) : p.1 ≠ k := by
  unfold VoteCollector.getHeightVotes at h
  split at h
  · have := (List.mem_filter.1 h).2
    simpa using this
  · rename_i hn
    intro hk
    obtain ⟨v, hv⟩ := AMap.exists_get?_of_mem _ h
    rw [hk] at hv
    rw [hv] at hn; cases hn

theorem adopted_gen {V : SignedVote → Prop} {B : Certs} {s : State T} (h : Filed s) (sh : Shuffle) (status : Status) :
    GStore V B (s.adopted sh status) := by
  refine ⟨fun p hp q hq => ?_, ⟨fun p hp q hq ty => ?_, fun p hp q hq ty qc hx => ?_, fun p hp q hq ty qc hx => ?_⟩⟩
  · obtain ⟨a, b, _⟩ := h.props p (mem_adopted_proposals hp) q hq
    exact ⟨a, b, fun hh => absurd (a.symm.trans hh) (adopted_proposals_ne hp)⟩
  · have hk := h.votes.pool p (mem_adopted_votes hp) q hq ty
    refine ⟨hk.inv, fun x hx => ?_⟩
    obtain ⟨a, b, c, d, _⟩ := hk.all x hx
    exact ⟨a, b, c, d, fun hh => absurd (a.symm.trans hh) (adopted_votes_ne hp)⟩
  · obtain ⟨a, b, c, _⟩ := h.votes.qc p (mem_adopted_votes hp) q hq ty qc hx
    exact ⟨a, b, c, fun hh => absurd (a.symm.trans hh) (adopted_votes_ne hp)⟩
  · obtain ⟨a, b, c, _⟩ := h.votes.hash p (mem_adopted_votes hp) q hq ty qc hx
    exact ⟨a, b, c, fun hh => absurd (a.symm.trans hh) (adopted_votes_ne hp)⟩

theorem trigCert_other {B : Certs} {t : SMRTrigger} (h1 : t.triggerType ≠ .proposal) (h2 : t.triggerType ≠ .prevoteQC)
    (h3 : t.triggerType ≠ .precommitQC) : TrigCert B t := fun _ => ⟨fun h => absurd h h1, fun h => absurd h h2, fun h => absurd h h3⟩

theorem fromOf_gen {V : SignedVote → Prop} {B : Certs} {H : Nat} {s : State T} {f : FromWhere} {u : UpdateFrom}
    (h : Store (PropAt B H) (VoteAt V H) (QcAt B H) s) (gh : s.height = H) (hu : FromOf s f u) : FromGen B u := by
  cases f with
  | prevoteQC r =>
    obtain ⟨qc, hq, rfl⟩ := hu
    obtain ⟨a, b, c, d⟩ := h.votes.getQcById hq
    rintro qc' (h | h) <;> cases h
    exact .inr (d (a.trans gh))
  | precommitQC r =>
    obtain ⟨qc, hq, rfl⟩ := hu
    rintro qc' (h | h) <;> cases h
    rcases hq with hq | hq
    · exact .inl hq.2
    · obtain ⟨a, b, c, d⟩ := h.votes.getQcById hq
      exact .inr (d (a.trans gh))
  | chokeQC r =>
    obtain ⟨qc, hq, rfl⟩ := hu
    rintro qc' (h | h) <;> cases h

/-- Inputs that do not move a validator. -/
theorem quiet_gen0 {lists : Nat → List Node} {V : SignedVote → Prop} {B : Certs} (hl : GoodLists lists) (hcnt : Counts lists V B)
    {e : Env T} {i : Input T} {s : State T} (hi : ¬ MoveInput i) (hp : s.consensusPower = true) (h : StGen lists V B s)
    (hin : InGen lists V B s i) :
    ((∀ sv ∈ votesOf (runArm i e ⟨s, []⟩).2.log, V sv) → StGen lists V B (runArm i e ⟨s, []⟩).2.st) ∧
    ∀ k, (∀ sv ∈ votesOf ((runArm i e ⟨s, []⟩).2.log.take k), V sv) → ∀ x ∈ (runArm i e ⟨s, []⟩).2.log.take k, EffGen B x := by
  simp only [MoveInput, not_or, not_exists] at hi
  obtain ⟨h1, h2, h3, h4⟩ := hi
  have := arm_inv (e := e) (i := i) (s := s) (P := fun w => ((∀ sv ∈ votesOf w.log, V sv) → w.st.consensusPower = true ∧
    w.st.height = s.height ∧ w.st.authority = s.authority ∧ Store (PropAt B s.height) (VoteAt V s.height) (QcAt B s.height) w.st ∧
    FromGen B w.st.updateFrom) ∧ ∀ k, (∀ sv ∈ votesOf (w.log.take k), V sv) → ∀ x ∈ w.log.take k, EffGen B x)
    ⟨fun _ => ⟨hp, rfl, rfl, h.store hp, h.reason⟩, by simp⟩ (by
     rintro w eff s' ⟨ih, ihk⟩ hm
     have main : (∀ sv ∈ votesOf w.log, V sv) → (s'.consensusPower = true ∧ s'.height = s.height ∧ s'.authority = s.authority ∧
        ∀ x ∈ eff, EffGen B x) ∧ FromGen B s'.updateFrom ∧ ((∀ sv ∈ votesOf eff, V sv) →
          Store (PropAt B s.height) (VoteAt V s.height) (QcAt B s.height) s') := by
      intro hvs0
      obtain ⟨g1, gh, ga, g2, gf⟩ := ih hvs0
      have hprop : ∀ sp, ProposalInput i w.st sp → PropAt B s.height sp := by
        rintro sp (hi | ⟨_, hi⟩)
        · rw [hi] at hin
          intro hh
          exact hin (.inr (by simp [hp, OverlordMsg.getHeight?, hh]))
        · exact (g2.props.get hi).2.2
      have hst := fun hvs' => g2.micro hm hprop
        (by rintro sv rfl hh; exact hin (.inr (by simp [hp, OverlordMsg.getHeight?, hh])))
        (fun sv hm' hx _ => (hvs' : ∀ sv ∈ votesOf eff, V sv) sv (List.mem_filterMap.2 ⟨_, hx, rfl⟩))
        (by
          rintro qc (rfl | ⟨sc, rfl, hch, hr, hf⟩) hh
          · exact hin (.inr (by simp [hp, OverlordMsg.getHeight?, hh]))
          · exact hin (.inr (by simp [hp, OverlordMsg.getHeight?, hch, gh])) qc (by omega) hf (by rw [hh, hch, gh]))
        (by
          intro qc hx hm'
          cases hm' with
          | genQc ty hash vs sig hi hc hv' ha =>
            simp only [List.mem_singleton, Effect.broadcast.injEq, OverlordMsg.aggregatedVote.injEq] at hx
            subst hx
            intro _
            show B ty w.st.height w.st.round hash
            rw [ga, h.auth hp, gh] at hc
            rw [gh]
            obtain ⟨l, k1, k2⟩ := count_sound (hl _).1 (hl _).2 (g2.votes.poolD _ _ _).at hc
            exact hcnt _ _ _ _ l k1 k2
          | enterRound => split at hx <;> simp at hx
          | castVote => simp at hx; split at hx <;> simp at hx
          | _ => simp at hx)
        (fun _ _ _ hi => absurd hi h1)
      have hgen : ∀ qc, .broadcast (.aggregatedVote qc) ∈ eff → Micro e i w.st eff s' → QcIn B qc := by
          intro qc hx hm'
          cases hm' with
          | genQc ty hash vs sig hi hc hv' ha =>
            simp only [List.mem_singleton, Effect.broadcast.injEq, OverlordMsg.aggregatedVote.injEq] at hx
            subst hx
            show B ty w.st.height w.st.round hash
            rw [ga, h.auth hp, gh] at hc
            rw [gh]
            obtain ⟨l, k1, k2⟩ := count_sound (hl _).1 (hl _).2 (g2.votes.poolD _ _ _).at hc
            exact hcnt _ _ _ _ l k1 k2
          | enterRound => split at hx <;> simp at hx
          | castVote => simp at hx; split at hx <;> simp at hx
          | _ => simp at hx
      have hfrom : FromGen B s'.updateFrom := by
        cases hm with
        | setFrom u r lr lp f hi hu =>
          exact fromOf_gen g2 gh hu
        | restoreFrom w b hi => exact absurd hi h1
        | move status hi => rcases hi with hi | hi | ⟨h, hi⟩; exact absurd hi (h3 _); exact absurd hi h1; exact absurd hi (h4 _)
        | moveLost status hsv hi => rcases hi with hi | hi | ⟨h, hi⟩; exact absurd hi (h3 _); exact absurd hi h1; exact absurd hi (h4 _)
        | adopt status hsv hi => rcases hi with hi | hi | ⟨h, hi⟩; exact absurd hi (h3 _); exact absurd hi h1; exact absurd hi (h4 _)
        | _ => exact gf
      have key : s'.consensusPower = true ∧ s'.height = w.st.height ∧ s'.authority = w.st.authority ∧ ∀ x ∈ eff, EffGen B x := by
        have hm0 := hm
        cases hm with
        | genQc ty hash vs sig hi hc hv' ha =>
          refine ⟨g1, rfl, rfl, ?_⟩
          intro x hx
          simp only [List.mem_singleton] at hx
          subst hx
          exact hgen _ (List.mem_singleton.2 rfl) hm0
        | castChoke sc lr lock hsv hi hl hc ha hs =>
          refine ⟨g1, rfl, rfl, ?_⟩
          intro x hx
          simp only [List.mem_cons, List.not_mem_nil, or_false] at hx
          rcases hx with rfl | rfl
          · trivial
          · show FromGen B sc.choke.from
            rw [hc]; exact gf
        | trigQcId r ty qc hq hfull =>
          refine ⟨g1, rfl, rfl, ?_⟩
          intro x hx
          simp only [List.mem_singleton] at hx
          subst hx
          obtain ⟨a, b, c, d⟩ := g2.votes.getQcById hq
          replace d := d (a.trans gh)
          unfold QcIn at d
          rw [a, b] at d
          intro _
          refine ⟨fun ht => ?_, fun ht => ?_, fun ht => ?_⟩ <;> cases hty : qc.voteType <;> simp [stTrigger, VoteType.toTrigger, hty] at ht d ⊢
          · exact d
          · exact d
        | trigQcHash h ty qc hi hq hr =>
          refine ⟨g1, rfl, rfl, ?_⟩
          intro x hx
          simp only [List.mem_singleton] at hx
          subst hx
          obtain ⟨a, b, c, d⟩ := g2.votes.getQcByHash hq
          replace d := d (a.trans gh)
          unfold QcIn at d
          intro _
          refine ⟨fun ht => ?_, fun ht => ?_, fun ht => ?_⟩ <;> cases ty <;> simp [stTrigger, VoteType.toTrigger, c] at ht d ⊢
          · exact d
          · exact d
        | acceptProposal sp ps hi hc hp hh hr hbk hs =>
          refine ⟨g1, rfl, rfl, ?_⟩
          intro x hx
          simp only [List.mem_cons, List.not_mem_nil, or_false] at hx
          rcases hx with rfl | rfl
          · intro _
            refine ⟨fun _ lr hlr => ?_, fun ht => ?_, fun ht => ?_⟩
            · obtain ⟨l, k1, k2⟩ := Option.map_eq_some_iff.1 hlr
              rw [← k2]; exact hprop sp hi (by rw [hh, gh]) l k1
            · cases ht
            · cases ht
          · trivial
        | enterRound round lr lp f' hi =>
          refine ⟨g1, rfl, rfl, ?_⟩
          intro x hx
          split at hx
          · cases hx
          · simp only [List.mem_singleton] at hx; subst hx; trivial
        | propose sp r lr lp f' hi hr0 hl hh hr ha hlk hs =>
          refine ⟨g1, rfl, rfl, ?_⟩
          intro x hx
          simp only [List.mem_cons, List.not_mem_nil, or_false] at hx
          rcases hx with rfl | rfl | rfl
          · intro l hlk'
            cases lr with
            | none => rw [hlk.1] at hlk'; cases hlk'
            | some k =>
              obtain ⟨_, _, qc, hq, hlq⟩ := hlk
              rw [hlq] at hlk'
              cases hlk'
              obtain ⟨a, b, c, d⟩ := g2.votes.getQcById hq
              exact ⟨d (a.trans gh), c, a.trans hh.symm, b⟩
          · intro _
            refine ⟨fun _ lr' hlr => ?_, fun ht => ?_, fun ht => ?_⟩
            · have hlr : lr = some lr' := hlr
              subst hlr
              obtain ⟨_, _, qc, hq, _⟩ := hlk
              obtain ⟨a, b, c, d⟩ := g2.votes.getQcById hq
              replace d := d (a.trans gh)
              unfold QcIn at d
              rw [a, b, c] at d
              exact ⟨_, d⟩
            · cases ht
            · cases ht
          · trivial
        | castVote ty hash lr lock sv hsv hi hl =>
          refine ⟨g1, rfl, rfl, ?_⟩
          intro x hx
          simp only [List.mem_cons, List.not_mem_nil, or_false] at hx
          rcases hx with rfl | rfl
          · trivial
          · split
            · trivial
            · exact ⟨sv, rfl⟩
        | commit hash content qc hsv hi => rcases hi with hi | hi; exact absurd hi (h4 _); exact absurd hi h1
        | move status hi => rcases hi with hi | hi | ⟨h, hi⟩; exact absurd hi (h3 _); exact absurd hi h1; exact absurd hi (h4 _)
        | moveLost status hsv hi => rcases hi with hi | hi | ⟨h, hi⟩; exact absurd hi (h3 _); exact absurd hi h1; exact absurd hi (h4 _)
        | adopt status hsv hi => rcases hi with hi | hi | ⟨h, hi⟩; exact absurd hi (h3 _); exact absurd hi h1; exact absurd hi (h4 _)
        | walLost hi => exact absurd hi h1
        | restorePos w b hi => exact absurd hi h1
        | restoreLeader _ _ hi => exact absurd hi h1
        | restoreFrom w b hi => exact absurd hi h1
        | restoreLock w b lock hi => exact absurd hi h1
        | walTrigger w b hi => exact absurd hi h1
        | forward m hi => exact absurd hi (h2 _)
        | verify m hi => exact absurd hi (h2 _)
        | chokeQuorum => exact ⟨g1, rfl, rfl, by simp [EffGen, stTrigger, TrigCert]⟩
        | recvChokeQc => exact ⟨g1, rfl, rfl, by simp [EffGen, stTrigger, TrigCert]⟩
        | stop => exact ⟨g1, rfl, rfl, by simp [EffGen, stTrigger, TrigCert]⟩
        | _ => exact ⟨g1, rfl, rfl, by simp [EffGen]⟩
      obtain ⟨k1, k2, k3, k4⟩ := key
      exact ⟨⟨k1, k2.trans gh, k3.trans ga, k4⟩, hfrom, hst⟩
     constructor
     · intro hvs
       have hv1 : ∀ sv ∈ votesOf w.log, V sv := fun sv hsv => hvs sv (by rw [votesOf_append]; exact List.mem_append_left _ hsv)
       have hv2 : ∀ sv ∈ votesOf eff, V sv := fun sv hsv => hvs sv (by rw [votesOf_append]; exact List.mem_append_right _ hsv)
       obtain ⟨⟨k1, k2, k3, k4⟩, k5, k6⟩ := main hv1
       exact ⟨k1, k2, k3, k6 hv2, k5⟩
     · intro k hvs x hx
       dsimp only at hvs hx
       by_cases hk : k ≤ w.log.length
       · rw [List.take_append_of_le_length hk] at hvs hx
         exact ihk k hvs x hx
       · rw [List.take_append, List.take_of_length_le (by omega)] at hvs hx
         have hv1 : ∀ sv ∈ votesOf w.log, V sv := fun sv hsv => hvs sv (by rw [votesOf_append]; exact List.mem_append_left _ hsv)
         rcases List.mem_append.1 hx with hx | hx
         · exact ihk w.log.length (by rw [List.take_length]; exact hv1) x (by rw [List.take_length]; exact hx)
         · exact (main hv1).1.2.2.2 x (List.mem_of_mem_take hx))
  refine ⟨fun hv => ?_, this.2⟩
  obtain ⟨j1, j2, j3, j4, j6⟩ := this.1 hv
  exact ⟨arm_filed h.filed, fun _ => by unfold GStore; rw [j2]; exact j4, fun _ => by rw [j3, j2]; exact h.auth hp, j6⟩

theorem quiet_gen {lists : Nat → List Node} {V : SignedVote → Prop} {B : Certs} (hl : GoodLists lists) (hcnt : Counts lists V B)
    {e : Env T} {i : Input T} {s : State T} (hi : ¬ MoveInput i) (hp : s.consensusPower = true) (h : StGen lists V B s)
    (hin : InGen lists V B s i) (hv : ∀ sv ∈ votesOf (runArm i e ⟨s, []⟩).2.log, V sv) :
    StGen lists V B (runArm i e ⟨s, []⟩).2.st ∧ ∀ x ∈ (runArm i e ⟨s, []⟩).2.log, EffGen B x := by
  obtain ⟨h1, h2⟩ := quiet_gen0 hl hcnt (e := e) hi hp h hin
  refine ⟨h1 hv, ?_⟩
  have := h2 (runArm i e ⟨s, []⟩).2.log.length
  rw [List.take_length] at this
  exact this hv

theorem moves_gen {lists : Nat → List Node} {V : SignedVote → Prop} {B : Certs} {e : Env T} {s : State T} {status : Status} {w : World T}
    (h : Filed s) (hst : status.height ≤ s.height → StGen lists V B s) (hf : FromGen B s.updateFrom)
    (ha : status.authorityList = lists status.height) (hs : ∀ b, e.walSave b = true) (m : Moves e s status w) :
    StGen lists V B w.st ∧ ∀ x ∈ w.log, EffGen B x := by
  cases m with
  | stay hh => exact ⟨hst hh, by simp⟩
  | away hh hp =>
    have hp' : (s.moved status).consensusPower = false := by
      show status.isConsensusNode s.address = false
      simpa using hp
    exact ⟨⟨⟨h.props, h.votes⟩, fun hq => absurd (hp'.symm.trans hq) (by simp), fun hq => absurd (hp'.symm.trans hq) (by simp), hf⟩, by simp⟩
  | lost hh hp hs' => obtain ⟨b, _, hb⟩ := hs'; rw [hs b] at hb; cases hb
  | adopt hh hp hs' =>
    refine ⟨⟨h.adopted _ _, fun _ => adopted_gen h _ _, fun _ => by show Authority.update _ = Authority.update (lists status.height); rw [ha], hf⟩, ?_⟩
    intro x hx
    simp only [List.cons_append, List.mem_cons, List.mem_append, List.mem_map, List.not_mem_nil, or_false] at hx
    rcases hx with rfl | ⟨m, hm, rfl⟩ | rfl
    · trivial
    · trivial
    · exact trigCert_other (by simp [stTrigger]) (by simp [stTrigger]) (by simp [stTrigger])

theorem commit_gen {lists : Nat → List Node} {V : SignedVote → Prop} {B : Certs} {e : Env T} {s : State T} {hash : Hash} {w : World T}
    (h : StGen lists V B s) (hs : ∀ b, e.walSave b = true) (hc : CommitsAnswered e)
    (ha : ∀ k c st, e.commit k c = some st → st.authorityList = lists st.height) (o : CommitOut e s hash w) :
    StGen lists V B w.st ∧ ∀ x ∈ w.log, EffGen B x := by
  cases o with
  | none => exact ⟨h, by simp⟩
  | lost content qc hb hq hs' => obtain ⟨b, _, hb⟩ := hs'; rw [hs b] at hb; cases hb
  | failed content qc hb hq hs' hc' => exact ⟨h, by simp [EffGen]⟩
  | stuck content qc st x hb hq hs' hc' hx =>
    obtain ⟨_, l, hl⟩ := hc _ _ _ hc'
    rw [hx] at hl; cases hl
  | done content qc st w hb hq hs' hc' hm =>
    have hlt := (hc _ _ _ hc').1
    obtain ⟨g1, g2⟩ := moves_gen (lists := lists) (B := B) (V := V) (s := { s with authority := Authority.update st.authorityList }) (w := w)
      ⟨h.filed.props, h.filed.votes⟩ (fun hle => absurd (show st.height ≤ s.height from hle) (by omega)) h.reason (ha _ _ _ hc') hs hm
    refine ⟨g1, fun x hx => ?_⟩
    rcases List.mem_append.1 hx with hx | hx
    · simp only [List.mem_cons, List.not_mem_nil, or_false] at hx
      rcases hx with rfl | rfl <;> trivial
    · exact g2 x hx

/-- Any input of a running node. -/
theorem arm_gen {lists : Nat → List Node} {V : SignedVote → Prop} {B : Certs} (hl : GoodLists lists) (hcnt : Counts lists V B)
    {e : Env T} {i : Input T} {s : State T} (hi : i ≠ .start) (h : StGen lists V B s) (hin : InGen lists V B s i)
    (hs : ∀ b, e.walSave b = true) (hc : CommitsAnswered e) (ha : ∀ k c st, e.commit k c = some st → st.authorityList = lists st.height)
    (hv : ∀ sv ∈ votesOf (runArm i e ⟨s, []⟩).2.log, V sv) :
    StGen lists V B (runArm i e ⟨s, []⟩).2.st ∧ ∀ x ∈ (runArm i e ⟨s, []⟩).2.log, EffGen B x := by
  by_cases hm : MoveInput i
  · rcases hm with h' | ⟨m, rfl⟩ | ⟨st, rfl⟩ | ⟨x, rfl⟩
    · exact absurd h' hi
    · obtain ⟨g1, g2⟩ := raw_auth (e := e) (m := m) (s := s)
      rw [g1]
      refine ⟨h, fun x hx => ?_⟩
      rcases g2 with g | ⟨g, _⟩ | ⟨g, _⟩
      · rw [g] at hx; cases hx
      · rw [g] at hx; simp at hx; subst hx; trivial
      · rw [g] at hx; simp at hx; subst hx; trivial
    · exact moves_gen h.filed (fun _ => h) h.reason (hin (.inl rfl)) hs (status_moves e s st)
    · by_cases h' : s.consensusPower = false ∨ s.stopped = true
      · rw [event_idle h']; exact ⟨h, by simp⟩
      · simp only [not_or, Bool.not_eq_false, Bool.not_eq_true] at h'
        have o := event_out e s (.commit x) h'.1 h'.2
        generalize (runArm (.event (.commit x)) e ⟨s, []⟩).2 = w at *
        cases o with
        | commit _ o => exact commit_gen h hs hc ha o
  · cases hp : s.consensusPower with
    | false => rw [idle_input hm hp]; exact ⟨h, by simp⟩
    | true => exact quiet_gen hl hcnt hm hp h hin hv

/-- The same for the first effects only (the node may crash after them). -/
theorem arm_gen_cut {lists : Nat → List Node} {V : SignedVote → Prop} {B : Certs} (hl : GoodLists lists) (hcnt : Counts lists V B)
    {e : Env T} {i : Input T} {s : State T} (hi : i ≠ .start) (h : StGen lists V B s) (hin : InGen lists V B s i)
    (hs : ∀ b, e.walSave b = true) (hc : CommitsAnswered e) (ha : ∀ k c st, e.commit k c = some st → st.authorityList = lists st.height)
    (cut : Option Nat) (hv : ∀ sv ∈ votesOf (cutTo cut (runArm i e ⟨s, []⟩).2.log), V sv) :
    ∀ x ∈ cutTo cut (runArm i e ⟨s, []⟩).2.log, EffGen B x := by
  by_cases hm : MoveInput i
  · have hv' : votesOf (runArm i e ⟨s, []⟩).2.log = [] := by
      rw [votesOf_obs]
      cases arm_out e s i hi with
      | quiet q1 => rw [q1]; rfl
      | status st hst o =>
        rw [← votesOf_obs]; exact moves_votes o
      | event ev hev hp o =>
        rcases hm with h' | ⟨m, h'⟩ | ⟨st, h'⟩ | ⟨x, h'⟩
        · exact absurd h' hi
        · rw [hev] at h'; cases h'
        · rw [hev] at h'; cases h'
        · subst hev; cases h'
          rw [← votesOf_obs]
          generalize (runArm (.event (.commit x)) e ⟨s, []⟩).2 = w at *
          cases o with
          | commit _ o => exact commit_votes o
    have := (arm_gen hl hcnt hi h hin hs hc ha (by rw [hv']; simp)).2
    intro x hx
    exact this x (by
      cases cut with
      | none => exact hx
      | some k => exact List.mem_of_mem_take hx)
  · cases hp : s.consensusPower with
    | false =>
      rw [idle_input hm hp]
      intro x hx
      cases cut <;> simp [cutTo] at hx
    | true =>
      obtain ⟨_, h2⟩ := quiet_gen0 hl hcnt (e := e) hm hp h hin
      cases cut with
      | none =>
        have := h2 (runArm i e ⟨s, []⟩).2.log.length
        rw [List.take_length] at this
        exact this hv
      | some k => exact h2 k hv

/-! ## Records and commits -/

theorem walLock_gen {B : Certs} {V : SignedVote → Prop} {s : State T} {lr : Option Nat} {lock : Option (WalLock T)} {step : Step} {r : Nat} {u : UpdateFrom}
    (h : GStore V B s) (hl : WalLockOf s lr lock) (hs : step ≠ .commit) :
    RecGen B (⟨s.height, r, step, lock, u⟩ : WalInfo T) ∧ lock.map WalLock.lockRound = lr := by
  cases lr with
  | none => have hl : lock = none := hl; subst hl; exact ⟨fun l hk => (by cases hk), rfl⟩
  | some k =>
    obtain ⟨qc, b, h1, h2, rfl⟩ := hl
    obtain ⟨a, b, c, d⟩ := h.votes.getQcById h1
    refine ⟨fun l hk => ?_, rfl⟩
    cases hk
    exact ⟨d a, a, fun _ => ⟨c, b⟩, fun h => absurd h hs⟩

theorem moves_obs {B : Certs} {e : Env T} {s : State T} {status : Status} {w : World T} (hf : FromGen B s.updateFrom) (m : Moves e s status w) :
    ∀ o ∈ obs w.log, ObsGen B o := by
  cases m with
  | adopt hh hp hs =>
    dsimp only
    rw [obs_adopt _ _ _ _ status.toSMR rfl]
    intro o ho
    simp only [List.mem_cons, List.not_mem_nil, or_false] at ho
    rcases ho with rfl | rfl
    · exact ⟨fun l hl => (by cases hl), hf⟩
    · trivial
  | _ => intro o ho; cases ho

theorem commit_obs {B : Certs} {V : SignedVote → Prop} {e : Env T} {s : State T} {hash : Hash} {w : World T}
    (h : GStore V B s) (hf : FromGen B s.updateFrom) (hne : hash ≠ []) (o : CommitOut e s hash w) : ∀ o ∈ obs w.log, ObsGen B o := by
  have key : ∀ content qc res, s.votes.getQcByHash s.height hash .precommit = some qc →
      ∀ o ∈ [Obs.save (commitRec s qc content), .call s.height (mkCommit s hash content qc) res], ObsGen B o := by
    intro content qc res hq o ho
    obtain ⟨a, b, c, d⟩ := h.votes.getQcByHash hq
    simp only [List.mem_cons, List.not_mem_nil, or_false] at ho
    rcases ho with rfl | rfl
    · refine ⟨fun l hl => ?_, hf⟩
      cases hl
      exact ⟨d a, a, fun hh => absurd rfl hh, fun _ => ⟨c, by rw [b]; exact hne⟩⟩
    · replace d := d a
      unfold QcIn at d
      rw [a, b, c] at d
      exact ⟨d, hne⟩
  cases o with
  | none => intro o ho; cases ho
  | lost content qc => intro o ho; cases ho
  | failed content qc hb hq => exact key content qc _ hq
  | stuck content qc st x hb hq => exact key content qc _ hq
  | done content qc st w hb hq hs hc hm =>
    intro o ho
    dsimp only at ho
    rw [obs_append] at ho
    rcases List.mem_append.1 ho with ho | ho
    · exact key content qc _ hq o ho
    · exact moves_obs (s := { s with authority := Authority.update st.authorityList }) hf hm o ho

theorem arm_obs {B : Certs} {V : SignedVote → Prop} {e : Env T} {s : State T} {i : Input T} (hi : i ≠ .start)
    (h : s.consensusPower = true → GStore V B s) (hf : FromGen B s.updateFrom) (hne : ∀ x, i = .event (.commit x) → x ≠ []) :
    ∀ o ∈ obs (runArm i e ⟨s, []⟩).2.log, ObsGen B o := by
  cases arm_out e s i hi with
  | quiet q1 => rw [q1]; intro o ho; cases ho
  | status st hst o => exact moves_obs hf o
  | event ev hev hp o =>
    subst hev
    replace h := h hp
    generalize (runArm (.event ev) e ⟨s, []⟩).2 = w at *
    cases o with
    | newRound h0 r lr lp f ni nc o =>
      have hrs := o.reason
      rcases o.out with ho | ⟨lock, u, hl, ho⟩ <;> rw [ho] at hrs ⊢ <;> intro o' ho' <;> simp at ho'
      subst ho'
      obtain ⟨f', hf'⟩ := hrs _ (List.mem_singleton.2 rfl)
      exact ⟨(walLock_gen h hl (by simp)).1, fromOf_gen h rfl hf'⟩
    | prevote h0 r hash lr o =>
      rcases o.out with ho | ⟨lock, sv, hl, _, _, ho⟩ <;> rw [ho] <;> intro o' ho' <;> simp at ho'
      rcases ho' with rfl | rfl
      · exact ⟨(walLock_gen h hl (by simp [VoteType.toStep])).1, hf⟩
      · trivial
    | precommit h0 r hash lr o =>
      rcases o.out with ho | ⟨lock, sv, hl, _, _, ho⟩ <;> rw [ho] <;> intro o' ho' <;> simp at ho'
      rcases ho' with rfl | rfl
      · exact ⟨(walLock_gen h hl (by simp [VoteType.toStep])).1, hf⟩
      · trivial
    | commit hash o => exact commit_obs h hf (hne _ rfl) o
    | brake r lr o =>
      rcases o.out with ho | ⟨lock, hl, ho⟩ <;> rw [ho] <;> intro o' ho' <;> simp at ho'
      subst ho'; exact ⟨(walLock_gen h hl (by simp)).1, hf⟩
    | stale h0 r lr hh hw => rw [hw]; intro o ho; cases ho
    | stop hw => rw [hw]; intro o ho; cases ho

/-! ## Starts -/

theorem restored_gen {B : Certs} {V : SignedVote → Prop} {s : State T} {w : WalInfo T} {q : Address}
    {H : Nat} (h : Store (PropAt B H) (VoteAt V H) (QcAt B H) s) (hr : RecGen B w) :
    Store (PropAt B H) (VoteAt V H) (QcAt B H) (s.restored w q) := by
  unfold State.restored
  split
  · exact ⟨h.props, h.votes⟩
  · rename_i lock hk
    exact ⟨h.props, h.votes.setQc fun _ => (hr lock hk).1⟩

/-- The list given at a start is that of the height at which the node starts. -/
def StartList (lists : Nat → List Node) (B : Certs) (e : Env T) (p : StartParams) : Prop :=
  (e.walLoad = some none ∧ p.list = lists p.initHeight) ∨
  ∃ (w : WalInfo T) (b : Bytes), e.walLoad = some (some b) ∧ decWalInfo b = .ok w ∧ p.list = lists w.height ∧ RecGen B w ∧ FromGen B w.from

theorem start_gen {lists : Nat → List Node} {V : SignedVote → Prop} {B : Certs} {e : Env T} {addr : Address} {p : StartParams}
    (hw : (p.list.map Node.address).contains addr = true → StartList (T := T) lists B e p) (hs : ∀ b, e.walSave b = true)
    (hc : CommitsAnswered e) (ha : ∀ k c st, e.commit k c = some st → st.authorityList = lists st.height) :
    (StGen lists V B (runArm .start e ⟨(State.new addr p.initHeight p.interval p.list : State T), []⟩).2.st ∧
      ∀ x ∈ (runArm .start e ⟨(State.new addr p.initHeight p.interval p.list : State T), []⟩).2.log, EffGen B x) ∧
    ∀ o ∈ obs (runArm .start e ⟨(State.new addr p.initHeight p.interval p.list : State T), []⟩).2.log, ObsGen B o := by
  have hpow : (State.new addr p.initHeight p.interval p.list : State T).consensusPower = (p.list.map Node.address |>.contains addr) := by
    have := update_contains p.list addr
    simp only [State.new]
    rw [Bool.eq_iff_iff, this, List.contains_iff_mem]
  have hst0 : ∀ H, Store (PropAt B H) (VoteAt V H) (QcAt B H) (State.new addr p.initHeight p.interval p.list : State T) := fun _ => Store.new ..
  have hfil0 : Filed (State.new addr p.initHeight p.interval p.list : State T) := Store.new ..
  have hau : (State.new addr p.initHeight p.interval p.list : State T).authority = Authority.update p.list := rfl
  have hfr0 : FromGen B (State.new addr p.initHeight p.interval p.list : State T).updateFrom := FromGen.mock
  have hhe : (State.new addr p.initHeight p.interval p.list : State T).height = p.initHeight := rfl
  have o := start_out e (State.new addr p.initHeight p.interval p.list : State T)
  have q3 := fun m => start_nofwd (e := e) (s := (State.new addr p.initHeight p.interval p.list : State T)) (m := m)
  have q4 := brake_spawn (e := e) (s := (State.new addr p.initHeight p.interval p.list : State T))
  rw [← hpow] at hw
  generalize (State.new addr p.initHeight p.interval p.list : State T) = s at *
  generalize (runArm .start e ⟨s, []⟩).2 = w at *
  have hwal : ∀ b : SMRBase, ∀ x ∈ [Effect.trigger (T := T) (walTrig b)], EffGen B x := by
    intro b x hx; simp only [List.mem_singleton] at hx; subst hx
    exact trigCert_other (by simp [walTrig, stTrigger]) (by simp [walTrig, stTrigger]) (by simp [walTrig, stTrigger])
  have known : ∀ (w : WalInfo T) b, s.consensusPower = true → e.walLoad = some (some b) → decWalInfo b = .ok w →
      p.list = lists w.height ∧ RecGen B w ∧ FromGen B w.from := by
    intro w b hp hl hd
    rcases hw hp with ⟨h, _⟩ | ⟨w', b', h1, h2, h3⟩
    · rw [hl] at h; cases h
    · rw [hl] at h1; cases h1; rw [hd] at h2; cases h2; exact h3
  have hrest : ∀ b (rec : WalInfo T) q, s.consensusPower = true → e.walLoad = some (some b) → decWalInfo b = .ok rec →
      StGen lists V B (s.restored rec q) := by
    intro b rec q hp hl hd
    obtain ⟨k1, k2, k3⟩ := known rec b hp hl hd
    refine ⟨(restored_gen (hst0 0) k2).filed, fun _ => restored_gen (hst0 _) k2, fun _ => ?_, ?_⟩
    rotate_left
    · have : (s.restored rec q).updateFrom = rec.from := by unfold State.restored; split <;> rfl
      rw [this]; exact k3
    rw [(restored_pos s rec q).1]
    have : (s.restored rec q).authority = s.authority := by unfold State.restored; split <;> rfl
    rw [this, hau, k1]
  have hfin : ∀ (_ : e.walLoad = some none), s.consensusPower = true → StGen lists V B s := by
    intro hl hp
    refine ⟨hfil0, fun _ => hst0 _, fun _ => ?_, hfr0⟩
    rcases hw hp with ⟨_, h⟩ | ⟨w', b', h1, _⟩
    · rw [hau, hhe, h]
    · rw [hl] at h1; cases h1
  cases o with
  | idle hw' h =>
    subst hw'
    refine ⟨⟨⟨hfil0, fun _ => hst0 _, fun hp => ?_, hfr0⟩, by simp⟩, by simp⟩
    rcases h hp with h | h
    · rcases hw hp with ⟨h1, _⟩ | ⟨w', b', h1, h2, _⟩
      · rcases h with h | ⟨b, x, h, _⟩ <;> rw [h1] at h <;> cases h
      · rcases h with h | ⟨b, x, h, h'⟩
        · rw [h1] at h; cases h
        · rw [h1] at h; cases h; rw [h2] at h'; cases h'
    · exact (hfin h.1 hp).auth hp
  | fresh hp hl hh hw' => subst hw'; exact ⟨⟨hfin hl hp, hwal _⟩, by simp [obs, obsOf, walTrig, stTrigger]⟩
  | noLeader b rec x hp hl hd hx hw' =>
    subst hw'
    refine ⟨⟨⟨⟨hfil0.props, hfil0.votes⟩, fun _ => ⟨(hst0 _).props, (hst0 _).votes⟩, fun _ => ?_, hfr0⟩, by simp⟩, by simp⟩
    show s.authority = Authority.update (lists rec.height)
    rw [hau, (known rec b hp hl hd).1]
  | noLock b rec q hp hl hd hx hst hk hw' => subst hw'; exact ⟨⟨hrest b rec q hp hl hd, by simp⟩, by simp⟩
  | resume b rec q hp hl hd hx hst hk hw' =>
    subst hw'; exact ⟨⟨hrest b rec q hp hl hd, hwal _⟩, by simp [obs, obsOf, walTrig, stTrigger]⟩
  | commit b rec q lock hp hl hd hx hst hk o =>
    refine ⟨commit_gen (hrest b rec q hp hl hd) hs hc ha o, ?_⟩
    exact commit_obs ((hrest b rec q hp hl hd).store (by rw [(restored_pos s rec q).2.2.1]; exact hp)) (hrest b rec q hp hl hd).reason (((known rec b hp hl hd).2.1 lock hk).2.2.2 hst).2 o
  | brake b rec q hp hl hd hx hst w1 o hw' =>
    have hr := hrest b rec q hp hl hd
    have hpw : (s.restored rec q).consensusPower = true := by rw [(restored_pos s rec q).2.2.1]; exact hp
    have est : w.st = w1.st := by rcases hw' with rfl | rfl <;> rfl
    have eobs : obs w.log = obs w1.log := by
      rcases hw' with rfl | rfl
      · rfl
      · rw [obs_append]
        simp [obs, obsOf, walTrig, stTrigger]
    obtain ⟨k1, k2, k3, k4, k5, _, _⟩ := o.keep
    have hobs : ∀ o ∈ obs w.log, ObsGen B o ∧ ∀ r, o = .save r → r.step = .brake := by
      intro o' ho'
      rw [eobs] at ho'
      rcases o.out with ho | ⟨lock, hl, ho⟩ <;> rw [ho] at ho' <;> simp at ho'
      subst ho'; exact ⟨⟨(walLock_gen (hr.store hpw) hl (by simp)).1, hr.reason⟩, fun r hr => by cases hr; rfl⟩
    have hsto := hr.store hpw
    refine ⟨⟨⟨⟨?_, ?_⟩, fun _ => ⟨?_, ?_⟩, fun _ => ?_, ?_⟩, ?_⟩, fun o ho => (hobs o ho).1⟩
    · rw [est, k5]; exact hr.filed.props
    · rw [est, k1]; exact hr.filed.votes
    · rw [est, k5, o.same.height]; exact hsto.props
    · rw [est, k1, o.same.height]; exact hsto.votes
    · rw [est, k4, o.same.height]; exact hr.auth hpw
    · rw [est, k3]; exact hr.reason
    · intro x hx
      cases x with
      | trigger t =>
        have : .trigger t ∈ w1.log ∨ t = walTrig rec.intoSmrBase := by
          rcases hw' with rfl | rfl
          · exact .inl hx
          · rcases List.mem_append.1 hx with hx | hx
            · exact .inl hx
            · simp at hx; exact .inr hx
        rcases this with h | rfl
        · have := (o.trigs t h).1
          exact trigCert_other (by rw [this]; simp) (by rw [this]; simp) (by rw [this]; simp)
        · exact hwal rec.intoSmrBase _ (List.mem_singleton.2 rfl)
      | broadcast m =>
        have : .broadcast m ∈ w1.log := by
          rcases hw' with rfl | rfl
          · exact hx
          · rcases List.mem_append.1 hx with hx | hx
            · exact hx
            · simp at hx
        obtain ⟨sc, rfl, hsc⟩ := o.sends m this
        show FromGen B sc.choke.from
        rw [hsc]; exact hr.reason
      | transmit a m =>
        have : .transmit a m ∈ w1.log := by
          rcases hw' with rfl | rfl
          · exact hx
          · rcases List.mem_append.1 hx with hx | hx
            · exact hx
            · simp at hx
        exact absurd this (o.quiet a m)
      | _ => trivial

end Overlord
