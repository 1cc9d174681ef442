import Verif.Spec.Light
import Verif.Proofs.OriginNet
import Verif.Props.Authority

/-! The certificates a node sends, saves and commits convince outsiders (used for C62). -/

set_option linter.unusedSimpArgs false
set_option linter.unusedVariables false
set_option linter.unusedSectionVars false
set_option linter.unnecessarySeqFocus false

namespace Overlord
open M Spec

namespace Light

theorem zip_map {α β γ : Type} (f : α → β) (g : α → γ) (l : List α) : ∀ p ∈ (l.map f).zip (l.map g), ∃ x ∈ l, p = (f x, g x) := by
  induction l with
  | nil => intro p hp; simp at hp
  | cons y l ih =>
    intro p hp
    simp only [List.map_cons, List.zip_cons_cons, List.mem_cons] at hp
    rcases hp with rfl | hp
    · exact ⟨y, by simp, rfl⟩
    · obtain ⟨x, h1, h2⟩ := ih p hp
      exact ⟨x, List.mem_cons_of_mem _ h1, h2⟩

/-- The signature of the vote is valid. -/
def GoodVote (V : Crypto) (sv : SignedVote) : Prop := V.verifySig sv.signature (V.hash (encVote sv.vote)) sv.voter = true

/-- The certificate a relayer builds. -/
theorem built_convinces {V c : Crypto} {addr : Address} (hc : Implements V addr c) {l : List Node} (hd : Distinct l) (hz : Sized l) {sh sh' : Shuffle}
    {votes : VoteCollector} {k r : Nat} {ty : VoteType} {hash : Hash} {vs : List SignedVote} {sig : Signature}
    (hp : PoolOk (GoodVote V) k r ty (poolD votes k r ty)) (hcnt : countingVote sh (Authority.update l) votes k r ty = .ok (some hash))
    (hv : votes.getVotes sh' k r ty hash = .ok vs) (ha : c.aggregate ((sortVotes vs).map SignedVote.signature) ((sortVotes vs).map SignedVote.voter) = some sig) :
    SignedByTwoThirds V l ⟨sig, (Authority.update l).bitmapOf ((sortVotes vs).map SignedVote.voter)⟩ ⟨k, r, ty, hash⟩ := by
  unfold countingVote at hcnt
  rw [getVoteMap_pool] at hcnt
  split at hcnt
  · cases hcnt
  rename_i m hm
  split at hm
  · cases hm
  cases hm
  obtain ⟨s, w, h1, h2, h3⟩ := countLoop_some _ hcnt
  have h1 := (sh.perm _).subset h1
  have hg := AMap.get?_of_mem _ hp.inv.hashNodup h1
  obtain ⟨hn, _⟩ := hp.inv.setNodup _ _ hg
  have hin := sumWeights32_in _ _ _ h2
  have hin' : ∀ a ∈ s, a ∈ l.map Node.address := fun a ha => hin a ((sh.perm s).mem_iff.2 ha)
  rw [sumWeights32_ok l hd _ hin 0 (by decide)] at h2
  have e1 : ((sh.run s).map (weightIn l)).sum = weight l (fun a => decide (a ∈ s)) := by
    rw [sum_perm ((sh.perm s).map _)]; exact sum_weightIn l hd s hn hin'
  rw [e1, Nat.zero_add] at h2
  cases h2
  have hq : 2 * total l < 3 * weight l (fun a => decide (a ∈ s)) := by
    have hb := total_bound hz
    have hle := weight_le_total l (fun a => decide (a ∈ s))
    have hs := update_voteWeightSum l
    have e2 := Nat.mod_le (weight l (fun a => decide (a ∈ s))) U32
    have hsz : 3 * total l < U64 := hb
    rw [hs, Nat.mod_eq_of_lt (by omega : total l < U64)] at h3
    rw [Nat.mod_eq_of_lt (by omega : total l * 2 < U64)] at h3
    have := Nat.mod_le (weight l (fun a => decide (a ∈ s)) % U32 * 3) U64
    omega
  -- the votes
  rw [getVotes_pool] at hv
  simp only [Votes.getVotes, hg, Option.bind_some] at hv
  have hmem : ∀ a, a ∈ s ↔ ∃ v, (poolD votes k r ty).byAddress.get? a = some v ∧ v.vote.blockHash = hash := by
    intro a
    have := hp.inv.mem hash a
    rw [hg] at this
    simpa using this
  obtain ⟨vs', g1, g2, g3⟩ := mapM_get (f := fun a => (poolD votes k r ty).byAddress.get? a) (sh'.run s) (by
    intro a ha
    obtain ⟨v, hf, _⟩ := (hmem a).1 ((sh'.perm _).subset ha)
    simp [hf]) (fun a v hv => hp.inv.voter a v hv)
  rw [g1] at hv
  cases hv
  have hvin : ∀ v ∈ vs, v.voter ∈ s := fun v hv => (sh'.perm s).subset (g2 ▸ List.mem_map.2 ⟨v, hv, rfl⟩)
  have hvn : (vs.map SignedVote.voter).Nodup := by rw [g2]; exact (sh'.perm s).nodup_iff.2 hn
  have hvote : ∀ v ∈ vs, GoodVote V v ∧ v.vote = ⟨k, r, ty, hash⟩ := by
    intro v hv
    have hf := g3 v hv
    obtain ⟨a1, a2, a3, a4, a5⟩ := hp.all (v.voter, v) (AMap.mem_of_get? _ hf)
    obtain ⟨v', f1, f2⟩ := (hmem _).1 (hvin v hv)
    have : v = v' := by rw [hf] at f1; exact Option.some.inj f1
    subst this
    refine ⟨a5, ?_⟩
    dsimp only at a1 a2 a3
    cases hv' : v.vote with
    | mk x1 x2 x3 x4 => rw [hv'] at a1 a2 a3 f2; simp only at a1 a2 a3 f2; subst a1 a2 a3 f2; rfl
  refine ⟨(sortVotes vs).map SignedVote.voter, (C10_bitmap_names_voters l l hd (List.Perm.refl _) vs hvn (fun v hv => hin' _ (hvin v hv))).1, ?_, ?_⟩
  · have := weight_mono l (fun a => decide (a ∈ s)) (fun a => decide (a ∈ (sortVotes vs).map SignedVote.voter)) (by
      intro n hn hsel
      simp only [decide_eq_true_eq] at hsel ⊢
      have h1 : n.address ∈ vs.map SignedVote.voter := by rw [g2]; exact (sh'.perm s).symm.subset hsel
      exact ((sortVotes_perm vs).map _).symm.subset h1)
    omega
  · refine hc.aggregates _ _ _ _ ha (by simp) ?_
    intro p hp'
    obtain ⟨v, hv, rfl⟩ := zip_map _ _ _ p hp'
    obtain ⟨j1, j2⟩ := hvote v ((sortVotes_perm vs).subset hv)
    unfold GoodVote at j1
    rw [j2] at j1
    exact j1

/-- What is verified and above the threshold convinces. -/
theorem checked_convinces {V c : Crypto} {addr : Address} (hc : Implements V addr c) {lists : Nat → List Node} (hl : GoodLists lists) {qc : AggregatedVote}
    (hq : Quorum (lists qc.height) (selected (lists qc.height) qc.signature.addressBitmap))
    (hv : verifyQc c qc (Authority.update (lists qc.height)) = true) : Convincing V lists qc := by
  unfold verifyQc qcVoters at hv
  rw [isAboveThreshold_eq _ (hl _).1 (hl _).2, getVoters_eq _ (hl _).1] at hv
  have hv : c.verifyAgg qc.signature.signature (c.hash (encVote qc.toVote))
    (((sortNodes (lists qc.height)).filter fun n => selected (lists qc.height) qc.signature.addressBitmap n.address).map Node.address) = true := hv
  rw [hc.agg, hc.hash] at hv
  refine ⟨_, extractVoters_eq _ (hl _).1 _, ?_, hv⟩
  unfold Quorum at hq
  have := weight_mono (lists qc.height) (selected (lists qc.height) qc.signature.addressBitmap) (fun a => decide (a ∈
    ((sortNodes (lists qc.height)).filter fun n => selected (lists qc.height) qc.signature.addressBitmap n.address).map Node.address)) (by
      intro n hn hsel
      simp only [decide_eq_true_eq]
      exact List.mem_map.2 ⟨n, List.mem_filter.2 ⟨(sortNodes_perm _).mem_iff.2 hn, hsel⟩, rfl⟩)
  omega

variable {T : Type} [ContentCodec T] [DecidableEq T]

/-- Votes and certificates of one height. -/
abbrev VAt (V : Crypto) (H : Nat) (sv : SignedVote) : Prop := sv.vote.height = H → GoodVote V sv
@[inherit_doc VAt]
abbrev QAt (V : Crypto) (lists : Nat → List Node) (H : Nat) (qc : AggregatedVote) : Prop := qc.height = H → Convincing V lists qc
@[inherit_doc VAt]
abbrev LStore (V : Crypto) (lists : Nat → List Node) (H : Nat) (s : State T) : Prop := Store (fun _ => True) (VAt V H) (QAt V lists H) s

/-- What a State has stored. -/
structure StLight (V : Crypto) (lists : Nat → List Node) (s : State T) : Prop where
  store : s.consensusPower = true → LStore V lists s.height s
  reason : ReasonConvinces V lists s.updateFrom

/-- What a verified message brings. -/
def InLight (V : Crypto) (lists : Nat → List Node) (s : State T) : Input T → Prop
  | .verified m => s.consensusPower = true → m.getHeight? = some s.height → match m with
    | .signedVote sv => GoodVote V sv
    | .aggregatedVote qc => Convincing V lists qc
    | .signedChoke sc => ∀ qc, 0 < sc.choke.round → sc.choke.from = .prevoteQC qc ∨ sc.choke.from = .precommitQC qc →
        qc.height = sc.choke.height → Convincing V lists qc
    | _ => True
  | _ => True

theorem fromOf_light {V : Crypto} {lists : Nat → List Node} {H : Nat} {s : State T} {f : FromWhere} {u : UpdateFrom}
    (h : LStore V lists H s) (gh : s.height = H) (hu : FromOf s f u) : ReasonConvinces V lists u := by
  cases f with
  | prevoteQC r =>
    obtain ⟨qc, hq, rfl⟩ := hu
    obtain ⟨a, b, c, d⟩ := h.votes.getQcById hq
    rintro qc' (h | h) <;> cases h
    exact .inr (d (a.trans gh))
  | precommitQC r =>
    obtain ⟨qc, hq, rfl⟩ := hu
    rintro qc' (h | h) <;> cases h
    rcases hq with hq | hq
    · exact .inl hq.2
    · obtain ⟨a, b, c, d⟩ := h.votes.getQcById hq
      exact .inr (d (a.trans gh))
  | chokeQC r =>
    obtain ⟨qc, hq, rfl⟩ := hu
    rintro qc' (h | h) <;> cases h

theorem walLock_light {V : Crypto} {lists : Nat → List Node} {H : Nat} {s : State T} {lr : Option Nat} {lock : Option (WalLock T)}
    (h : LStore V lists H s) (gh : s.height = H) (hl : WalLockOf s lr lock) : ∀ l, lock = some l → Convincing V lists l.lockVotes := by
  intro l hk
  cases lr with
  | none => have hl : lock = none := hl; rw [hl] at hk; cases hk
  | some r =>
    obtain ⟨qc, b, k1, k2, k3⟩ := hl
    rw [k3] at hk; cases hk
    obtain ⟨a, b, c, d⟩ := h.votes.getQcById k1
    exact d (a.trans gh)

/-- Inputs that do not move a validator. -/
theorem quiet_light {V : Crypto} {lists : Nat → List Node} (hgl : GoodLists lists) {e : Env T} {i : Input T} {s : State T} (hi : ¬ MoveInput i)
    (hp : s.consensusPower = true) (hau : s.authority = Authority.update (lists s.height)) (hc : Implements V s.address e.crypto)
    (h : StLight V lists s) (hin : InLight V lists s i) :
    StLight V lists (runArm i e ⟨s, []⟩).2.st ∧ ∀ x ∈ (runArm i e ⟨s, []⟩).2.log, Certificates V lists x := by
  simp only [MoveInput, not_or, not_exists] at hi
  obtain ⟨h1, h2, h3, h4⟩ := hi
  have := arm_inv (e := e) (i := i) (s := s) (P := fun w => w.st.consensusPower = true ∧ w.st.height = s.height ∧ w.st.authority = s.authority ∧
      w.st.address = s.address ∧ LStore V lists s.height w.st ∧ ReasonConvinces V lists w.st.updateFrom ∧ ∀ x ∈ w.log, Certificates V lists x)
    ⟨hp, rfl, rfl, rfl, h.store hp, h.reason, by simp⟩ (by
      intro w eff s' ⟨g1, g2, g3, ga, g4, g5, g6⟩ hm
      have hgen : ∀ qc, .broadcast (.aggregatedVote qc) ∈ eff → Micro e i w.st eff s' → Convincing V lists qc := by
        intro qc hx hm'
        cases hm' with
        | genQc ty hash vs sig hi hcnt hv' ha =>
          simp only [List.mem_singleton, Effect.broadcast.injEq, OverlordMsg.aggregatedVote.injEq] at hx
          subst hx
          have hpool := (g4.votes.poolD (w.st.height) w.st.round ty)
          unfold Convincing mkQc
          dsimp only
          rw [g3, hau] at hcnt ⊢
          rw [g2] at hcnt hv' hpool ⊢
          refine built_convinces hc (hgl _).1 (hgl _).2 ⟨hpool.inv, fun p hp => ?_⟩ hcnt hv' ha
          obtain ⟨a1, a2, a3, a4, a5⟩ := hpool.all p hp
          exact ⟨a1, a2, a3, a4, a5 a1⟩
        | enterRound => split at hx <;> simp at hx
        | castVote => simp at hx; split at hx <;> simp at hx
        | _ => simp at hx
      have hst := g4.micro hm (fun _ _ => trivial)
        (by rintro sv rfl hh; exact hin hp (by simp [OverlordMsg.getHeight?, hh]))
        (by
          intro sv hm' hx _
          cases hm' with
          | castVote ty hash lr lock sv' hsv hi' hl hvv ha hsg =>
            have : sv = sv' := by
              simp only [List.mem_cons, List.not_mem_nil, or_false, reduceCtorEq, false_or] at hx
              split at hx
              · cases hx; rfl
              · cases hx
            subst this
            unfold GoodVote
            rw [ha, ga, ← hc.hash]
            exact hc.signs _ _ hsg
          | enterRound => split at hx <;> simp at hx
          | _ => simp at hx)
        (by
          rintro qc (rfl | ⟨sc, rfl, hch, hr, hf⟩) hh
          · exact hin hp (by simp [OverlordMsg.getHeight?, hh])
          · exact hin hp (by simp [OverlordMsg.getHeight?, hch, g2]) qc (by omega) hf (by rw [hh, hch, g2]))
        (fun qc hx hm' _ => hgen qc hx hm')
        (fun _ _ _ hi => absurd hi h1)
      have key : s'.consensusPower = true ∧ s'.height = s.height ∧ s'.authority = s.authority ∧ s'.address = s.address ∧
          ReasonConvinces V lists s'.updateFrom ∧ ∀ x ∈ eff, Certificates V lists x := by
        have hm0 := hm
        cases hm with
        | genQc ty hash vs sig hi hcnt hv' ha =>
          refine ⟨g1, g2, g3, ga, g5, ?_⟩
          intro x hx
          simp only [List.mem_singleton] at hx
          subst hx
          exact hgen _ (List.mem_singleton.2 rfl) hm0
        | setFrom u r lr lp f hi hu => exact ⟨g1, g2, g3, ga, fromOf_light g4 g2 hu, by simp [Certificates]⟩
        | acceptProposal sp ps hi hc hpr hh hr hbk hs =>
          refine ⟨g1, g2, g3, ga, g5, ?_⟩
          intro x hx
          simp only [List.mem_cons, List.not_mem_nil, or_false] at hx
          rcases hx with rfl | rfl <;> trivial
        | enterRound round lr lp f' hi =>
          refine ⟨g1, g2, g3, ga, g5, ?_⟩
          intro x hx
          split at hx
          · cases hx
          · simp only [List.mem_singleton] at hx; subst hx; trivial
        | wal step lr lock ok hsv hl hi =>
          refine ⟨g1, g2, g3, ga, g5, ?_⟩
          intro x hx
          simp only [List.mem_singleton] at hx
          subst hx
          cases ok with
          | false => trivial
          | true => exact ⟨walLock_light g4 g2 hl, g5⟩
        | propose sp r lr lp f' hi hr0 hl hh hr ha hlk hs =>
          refine ⟨g1, g2, g3, ga, g5, ?_⟩
          intro x hx
          simp only [List.mem_cons, List.not_mem_nil, or_false] at hx
          rcases hx with rfl | rfl | rfl
          · intro l hlk'
            cases lr with
            | none => rw [hlk.1] at hlk'; cases hlk'
            | some k =>
              obtain ⟨_, _, qc, hq, hlq⟩ := hlk
              rw [hlq] at hlk'
              cases hlk'
              obtain ⟨a, b, c, d⟩ := g4.votes.getQcById hq
              exact d (a.trans g2)
          · trivial
          · trivial
        | castVote ty hash lr lock sv hsv hi hl =>
          refine ⟨g1, g2, g3, ga, g5, ?_⟩
          intro x hx
          simp only [List.mem_cons, List.not_mem_nil, or_false] at hx
          rcases hx with rfl | rfl
          · exact ⟨walLock_light g4 g2 hl, g5⟩
          · split <;> trivial
        | castChoke sc lr lock hsv hi hl hcc =>
          refine ⟨g1, g2, g3, ga, g5, ?_⟩
          intro x hx
          simp only [List.mem_cons, List.not_mem_nil, or_false] at hx
          rcases hx with rfl | rfl
          · exact ⟨walLock_light g4 g2 hl, g5⟩
          · show ReasonConvinces V lists sc.choke.from
            rw [hcc]; exact g5
        | commitLost w' hsv hw hh hr => exact ⟨g1, g2, g3, ga, g5, by simp [Certificates]⟩
        | commit hash content qc hsv hi => rcases hi with hi | hi; exact absurd hi (h4 _); exact absurd hi h1
        | move status hi => rcases hi with hi | hi | ⟨h, hi⟩; exact absurd hi (h3 _); exact absurd hi h1; exact absurd hi (h4 _)
        | moveLost status hsv hi => rcases hi with hi | hi | ⟨h, hi⟩; exact absurd hi (h3 _); exact absurd hi h1; exact absurd hi (h4 _)
        | adopt status hsv hi => rcases hi with hi | hi | ⟨h, hi⟩; exact absurd hi (h3 _); exact absurd hi h1; exact absurd hi (h4 _)
        | walLost hi => exact absurd hi h1
        | restorePos w b hi => exact absurd hi h1
        | restoreLeader _ _ hi => exact absurd hi h1
        | restoreFrom w b hi => exact absurd hi h1
        | restoreLock w b lock hi => exact absurd hi h1
        | walTrigger w b hi => exact absurd hi h1
        | forward m hi => exact absurd hi (h2 _)
        | verify m hi => exact absurd hi (h2 _)
        | _ => exact ⟨g1, g2, g3, ga, g5, by simp [Certificates]⟩
      obtain ⟨k1, k2, k3, k4, k5, k6⟩ := key
      refine ⟨k1, k2, k3, k4, hst, k5, fun x hx => ?_⟩
      rcases List.mem_append.1 hx with hx | hx
      · exact g6 x hx
      · exact k6 x hx)
  obtain ⟨k1, k2, k3, k4, k5, k6, k7⟩ := this
  exact ⟨⟨fun _ => by rw [k2]; exact k5, k6⟩, k7⟩

theorem moves_light {V : Crypto} {lists : Nat → List Node} {e : Env T} {s : State T} {status : Status} {w : World T}
    (hf : Filed s) (h : StLight V lists s) (hs : ∀ b, e.walSave b = true) (m : Moves e s status w) :
    StLight V lists w.st ∧ ∀ x ∈ w.log, Certificates V lists x := by
  cases m with
  | stay => exact ⟨h, by simp⟩
  | away hh hp => exact ⟨⟨fun hp' => absurd (show status.isConsensusNode s.address = true from hp') (by simp [hp]), h.reason⟩, by simp⟩
  | lost hh hp hs' => obtain ⟨b, _, hb⟩ := hs'; rw [hs b] at hb; cases hb
  | adopt hh hp hs' =>
    refine ⟨⟨fun _ => ⟨fun p hp q hq => ?_, ⟨fun p hp q hq ty => ?_, fun p hp q hq ty qc hx => ?_, fun p hp q hq ty qc hx => ?_⟩⟩, h.reason⟩, ?_⟩
    · obtain ⟨a, b, _⟩ := hf.props p (mem_adopted_proposals hp) q hq
      exact ⟨a, b, trivial⟩
    · have hk := hf.votes.pool p (mem_adopted_votes hp) q hq ty
      refine ⟨hk.inv, fun x hx => ?_⟩
      obtain ⟨a, b, c, d, _⟩ := hk.all x hx
      exact ⟨a, b, c, d, fun hh => absurd (a.symm.trans hh) (adopted_votes_ne hp)⟩
    · obtain ⟨a, b, c, _⟩ := hf.votes.qc p (mem_adopted_votes hp) q hq ty qc hx
      exact ⟨a, b, c, fun hh => absurd (a.symm.trans hh) (adopted_votes_ne hp)⟩
    · obtain ⟨a, b, c, _⟩ := hf.votes.hash p (mem_adopted_votes hp) q hq ty qc hx
      exact ⟨a, b, c, fun hh => absurd (a.symm.trans hh) (adopted_votes_ne hp)⟩
    · intro x hx
      simp only [List.cons_append, List.mem_cons, List.mem_append, List.mem_map, List.not_mem_nil, or_false] at hx
      rcases hx with rfl | ⟨m, hm, rfl⟩ | rfl
      · exact ⟨fun l hl => (by cases hl), h.reason⟩
      · trivial
      · trivial

theorem commit_light {V : Crypto} {lists : Nat → List Node} {e : Env T} {s : State T} {hash : Hash} {w : World T}
    (hf : Filed s) (h : StLight V lists s) (hp : s.consensusPower = true) (hs : ∀ b, e.walSave b = true) (hne : hash ≠ []) (o : CommitOut e s hash w) :
    StLight V lists w.st ∧ ∀ x ∈ w.log, Certificates V lists x := by
  have h2 : ∀ content qc res, s.votes.getQcByHash s.height hash .precommit = some qc →
      ∀ x ∈ [Effect.saveWal (commitRec s qc content) true, .commitCall s.height (mkCommit s hash content qc) res], Certificates V lists x := by
    intro content qc res hq x hx
    obtain ⟨a, b, c, d⟩ := (h.store hp).votes.getQcByHash hq
    have d := d a
    simp only [List.mem_cons, List.not_mem_nil, or_false] at hx
    rcases hx with rfl | rfl
    · refine ⟨fun l hl => ?_, h.reason⟩
      cases hl
      exact d
    · refine ⟨rfl, hne, ?_⟩
      unfold Convincing at d
      rw [a, b, c] at d
      exact d
  have h3 : ∀ status : Status, StLight V lists { s with authority := Authority.update status.authorityList } :=
    fun _ => ⟨fun hp => ⟨(h.store hp).props, (h.store hp).votes⟩, h.reason⟩
  have h4 : ∀ status : Status, Filed { s with authority := Authority.update status.authorityList } := fun _ => ⟨hf.props, hf.votes⟩
  cases o with
  | none => exact ⟨h, by simp⟩
  | lost content qc hb hq hs' => obtain ⟨b, _, hb⟩ := hs'; rw [hs b] at hb; cases hb
  | failed content qc hb hq hs' hc' => exact ⟨h, h2 content qc _ hq⟩
  | stuck content qc st x hb hq hs' hc' hx => exact ⟨h3 st, h2 content qc _ hq⟩
  | done content qc st w hb hq hs' hc' hm =>
    obtain ⟨g1, g2⟩ := moves_light (h4 st) (h3 st) hs hm
    refine ⟨g1, fun x hx => ?_⟩
    rcases List.mem_append.1 hx with hx | hx
    · exact h2 content qc _ hq x hx
    · exact g2 x hx

/-- Any input of a running node. -/
theorem arm_light {V : Crypto} {lists : Nat → List Node} (hgl : GoodLists lists) {e : Env T} {i : Input T} {s : State T} (hi : i ≠ .start)
    (hf : Filed s) (hau : s.consensusPower = true → s.authority = Authority.update (lists s.height)) (hc : Implements V s.address e.crypto)
    (h : StLight V lists s) (hin : InLight V lists s i) (hne : ∀ x, i = .event (.commit x) → x ≠ []) (hs : ∀ b, e.walSave b = true) :
    StLight V lists (runArm i e ⟨s, []⟩).2.st ∧ ∀ x ∈ (runArm i e ⟨s, []⟩).2.log, Certificates V lists x := by
  by_cases hm : MoveInput i
  · rcases hm with h' | ⟨m, rfl⟩ | ⟨st, rfl⟩ | ⟨x, rfl⟩
    · exact absurd h' hi
    · obtain ⟨g1, g2⟩ := raw_auth (e := e) (m := m) (s := s)
      rw [g1]
      refine ⟨h, fun x hx => ?_⟩
      rcases g2 with g | ⟨g, _⟩ | ⟨g, _⟩
      · rw [g] at hx; cases hx
      · rw [g] at hx; simp at hx; subst hx; trivial
      · rw [g] at hx; simp at hx; subst hx; trivial
    · exact moves_light hf h hs (status_moves e s st)
    · by_cases h' : s.consensusPower = false ∨ s.stopped = true
      · rw [event_idle h']; exact ⟨h, by simp⟩
      · simp only [not_or, Bool.not_eq_false, Bool.not_eq_true] at h'
        have o := event_out e s (.commit x) h'.1 h'.2
        generalize (runArm (.event (.commit x)) e ⟨s, []⟩).2 = w at *
        cases o with
        | commit _ o => exact commit_light hf h h'.1 hs (hne _ rfl) o
  · cases hp : s.consensusPower with
    | false => rw [idle_input hm hp]; exact ⟨h, by simp⟩
    | true => exact quiet_light hgl (e := e) hm hp (hau hp) hc h hin

theorem start_light {V : Crypto} {lists : Nat → List Node} {e : Env T} {addr : Address} {p : StartParams}
    (hw : (p.list.map Node.address).contains addr = true → ∀ b (w : WalInfo T), e.walLoad = some (some b) → decWalInfo b = .ok w →
      (∀ l, w.lock = some l → Convincing V lists l.lockVotes ∧ (w.step = .commit → l.lockVotes.blockHash ≠ [])) ∧ ReasonConvinces V lists w.from)
    (hs : ∀ b, e.walSave b = true) :
    StLight V lists (runArm .start e ⟨(State.new addr p.initHeight p.interval p.list : State T), []⟩).2.st ∧
      ∀ x ∈ (runArm .start e ⟨(State.new addr p.initHeight p.interval p.list : State T), []⟩).2.log, Certificates V lists x := by
  have hpow : (State.new addr p.initHeight p.interval p.list : State T).consensusPower = true → (p.list.map Node.address).contains addr = true := by
    intro h; rw [new_power] at h; exact h
  have hst0 : ∀ H, LStore V lists H (State.new addr p.initHeight p.interval p.list : State T) := fun _ => Store.new ..
  have hmock : ReasonConvinces V lists (State.new addr p.initHeight p.interval p.list : State T).updateFrom := by
    rintro qc (h | h) <;> cases h
    exact .inl rfl
  have o := start_out e (State.new addr p.initHeight p.interval p.list : State T)
  have hplain : ∀ m, .broadcast m ∈ (runArm .start e ⟨(State.new addr p.initHeight p.interval p.list : State T), []⟩).2.log → ∃ sc, m = .signedChoke sc := by
    intro m hx
    obtain ⟨s1, eff, s2, -, hm, hx⟩ := arm_effect (P := fun _ => True) trivial (fun _ _ _ _ _ => trivial) hx
    cases hm with
    | propose sp r lr lp f hi => obtain ⟨_, _, _, hi⟩ := hi; cases hi
    | genQc ty hash vs sig hi =>
      rcases hi with ⟨_, _, ⟨_, _, hi⟩, _⟩ | ⟨_, hi, _⟩ <;> cases hi
    | castChoke sc => simp at hx; exact ⟨sc, hx⟩
    | enterRound => split at hx <;> simp at hx
    | castVote => simp at hx; split at hx <;> simp at hx
    | _ => simp at hx
  generalize (State.new addr p.initHeight p.interval p.list : State T) = s at *
  have h0 : StLight V lists s := ⟨fun _ => hst0 _, hmock⟩
  generalize (runArm .start e ⟨s, []⟩).2 = w at *
  have hrest : ∀ b (rec : WalInfo T) q, s.consensusPower = true → e.walLoad = some (some b) → decWalInfo b = .ok rec →
      StLight V lists (s.restored rec q) ∧ Filed (s.restored rec q) := by
    intro b rec q hp hl hd
    obtain ⟨hr, hr2⟩ := hw (hpow hp) b rec hl hd
    unfold State.restored
    split
    · exact ⟨⟨fun _ => ⟨(hst0 0).props, (hst0 _).votes⟩, hr2⟩, ⟨(hst0 0).filed.props, (hst0 0).filed.votes⟩⟩
    · rename_i lock hk
      exact ⟨⟨fun _ => ⟨(hst0 0).props, (hst0 _).votes.setQc fun _ => (hr lock hk).1⟩, hr2⟩, ⟨(hst0 0).filed.props, (hst0 0).filed.votes.setQc trivial⟩⟩
  cases o with
  | idle hw' => subst hw'; exact ⟨h0, by simp⟩
  | fresh _ _ _ hw' => subst hw'; exact ⟨h0, by simp [Certificates]⟩
  | noLeader b rec x hp hl hd hx hw' =>
    subst hw'
    exact ⟨⟨fun _ => ⟨(hst0 0).props, (hst0 _).votes⟩, hmock⟩, by simp⟩
  | noLock b rec q hp hl hd hx hst hk hw' => subst hw'; exact ⟨(hrest b rec q hp hl hd).1, by simp⟩
  | resume b rec q hp hl hd hx hst hk hw' => subst hw'; exact ⟨(hrest b rec q hp hl hd).1, by simp [Certificates]⟩
  | commit b rec q lock hp hl hd hx hst hk o =>
    have hpw : (s.restored rec q).consensusPower = true := by rw [(restored_pos s rec q).2.2.1]; exact hp
    exact commit_light (hrest b rec q hp hl hd).2 (hrest b rec q hp hl hd).1 hpw hs (((hw (hpow hp) b rec hl hd).1 lock hk).2 hst) o
  | brake b rec q hp hl hd hx hst w1 o hw' =>
    obtain ⟨hr, hfr⟩ := hrest b rec q hp hl hd
    have hpw : (s.restored rec q).consensusPower = true := by rw [(restored_pos s rec q).2.2.1]; exact hp
    have est : w.st = w1.st := by rcases hw' with rfl | rfl <;> rfl
    have eobs : obs w.log = obs w1.log := by
      rcases hw' with rfl | rfl
      · rfl
      · rw [obs_append]
        simp [obs, obsOf, walTrig, stTrigger]
    have hup : (s.restored rec q).updateFrom = rec.from := by unfold State.restored; split <;> rfl
    obtain ⟨k1, k2, k3, k4, k5, _, _⟩ := o.keep
    refine ⟨⟨fun _ => ?_, ?_⟩, ?_⟩
    · have hx := hr.store hpw
      rw [est, o.same.height]
      exact ⟨by rw [k5]; exact hx.props, by rw [k1]; exact hx.votes⟩
    · rw [est, k3]; exact hr.reason
    · intro x hx
      cases x with
      | saveWal r ok =>
        cases ok with
        | false => trivial
        | true =>
          have h1 : .save r ∈ obs w.log := List.mem_filterMap.2 ⟨_, hx, rfl⟩
          rw [eobs] at h1
          rcases o.out with h | ⟨lock, hl, h⟩
          · rw [h] at h1; cases h1
          · rw [h] at h1; simp at h1; subst h1
            exact ⟨walLock_light (hr.store hpw) rfl hl, hr.reason⟩
      | commitCall k c r =>
        have : .call k c r ∈ obs w.log := List.mem_filterMap.2 ⟨_, hx, rfl⟩
        rw [eobs] at this
        rcases o.out with h | ⟨lock, hl, h⟩
        · rw [h] at this; cases this
        · rw [h] at this; simp at this
      | broadcast m =>
        obtain ⟨sc, rfl⟩ := hplain m hx
        have : .broadcast (.signedChoke sc) ∈ w1.log := by
          rcases hw' with rfl | rfl
          · exact hx
          · rcases List.mem_append.1 hx with hx | hx
            · exact hx
            · simp at hx
        obtain ⟨sc', hsc', hsc⟩ := o.sends _ this
        cases hsc'
        show ReasonConvinces V lists sc.choke.from
        rw [hsc]; exact hr.reason
      | _ => trivial

/-- What is known about a node. -/
structure LightNode (V : Crypto) (lists : Nat → List Node) (addr : Address) (n : NodeSys T) : Prop where
  gen : GenNode lists (fun _ => True) Origin.AnyCert addr n
  log : ∀ x ∈ n.log, Certificates V lists x
  up : n.down = false → StLight V lists n.st

theorem lightNode_new (V : Crypto) (lists : Nat → List Node) (addr : Address) : LightNode V lists addr (NodeSys.new addr : NodeSys T) := by
  refine ⟨⟨?_, ?_, ?_⟩, ?_, ?_⟩ <;> simp [NodeSys.new, NodeSys.fresh]

theorem light_step {V : Crypto} {lists : Nat → List Node} {addr : Address} (hgl : GoodLists lists) {n n' : NodeSys T} {x : NAct T}
    (h : LightNode V lists addr n) (o : LightStep V lists addr n x)
    (hin : ∀ e cut m q, x = .arm .verified e cut → n.verifiedQ = m :: q → InLight V lists n.st (.verified m)) (ha : n.act addr x = some n') :
    LightNode V lists addr n' := by
  have hg := h.gen
  have gen' : GenNode lists (fun _ => True) Origin.AnyCert addr n' := by
    refine gen_step (V := fun _ => True) (B := Origin.AnyCert) hgl (fun _ h => h) (fun _ _ _ _ h => h) (fun _ _ _ _ _ _ _ => trivial) hg
      ⟨o.start, o.answers, o.saves, o.given⟩ ?_ ha (fun _ _ _ _ _ => trivial)
    intro e cut hx m q hq hm
    subst hx
    cases m with
    | richStatus st => exact o.weighed _ q hq hm
    | signedProposal sp => exact fun _ _ => ⟨[], trivial⟩
    | signedChoke sc => exact fun _ _ _ _ => trivial
    | _ => trivial
  have : (∀ x ∈ n'.log, Certificates V lists x) ∧ (n'.down = false → StLight V lists n'.st) := ?_
  · exact ⟨gen', this.1, this.2⟩
  rcases act_log ha with ⟨e1, e2⟩ | ⟨i, e, cut, s, e1, e2, hcase⟩
  · rw [e1]
    refine ⟨h.log, fun hd => ?_⟩
    obtain ⟨e3, e4⟩ := e2 hd
    rw [e4]; exact h.up e3
  · have fin : StLight V lists (runArm i e ⟨s, []⟩).2.st ∧ (∀ x ∈ (runArm i e ⟨s, []⟩).2.log, Certificates V lists x) →
        (∀ x ∈ n'.log, Certificates V lists x) ∧ (n'.down = false → StLight V lists n'.st) := by
      rintro ⟨k1, k2⟩
      refine ⟨?_, ?_⟩
      · rw [e1]
        intro y hy
        rcases List.mem_append.1 hy with hy | hy
        · exact h.log y hy
        · exact k2 y (cut_mem hy)
      · intro hd
        obtain ⟨rfl, e4⟩ := e2 hd
        rw [e4]; exact k1
    rcases hcase with ⟨hd, rfl, hi, y, n1, htk, rfl⟩ | ⟨hd, rfl, p, rfl, rfl⟩
    · obtain ⟨hst, hadr⟩ := (hg.up hd).st
      have hin' : InLight V lists n.st i := by
        cases i with
        | verified m =>
          cases y with
          | verified =>
            simp only [NodeSys.take] at htk
            split at htk
            · cases htk
            · rename_i m' q hq
              simp only [Option.some.injEq, Prod.mk.injEq, Input.verified.injEq] at htk
              obtain ⟨rfl, _⟩ := htk
              exact hin e cut _ q rfl hq
          | raw m => simp [NodeSys.take] at htk
          | event => simp only [NodeSys.take] at htk; split at htk <;> simp at htk
          | resp => simp only [NodeSys.take] at htk; split at htk <;> simp at htk
        | _ => trivial
      have hne : ∀ z, i = .event (.commit z) → z ≠ [] := by
        rintro z rfl
        exact (Preds.take (hg.up hd) htk).1.2
      refine fin (arm_light hgl (e := e) hi hst.filed hst.auth ?_ (h.up hd) hin' hne o.saves)
      rw [hadr]; exact o.scheme
    · refine fin (start_light (e := e) (addr := addr) (p := p) ?_ o.saves)
      intro hli b w hl hd'
      have hst := o.start
      simp only [StartOk, hli, if_true] at hst
      split at hst
      · rw [hl] at hst; cases hst
      · rename_i w' hw'
        obtain ⟨_, b', e3, e4⟩ := hst
        rw [hl] at e3; cases e3
        rw [hd'] at e4; cases e4
        unfold lastSaved at hw'
        have hm := List.mem_of_getLast? hw'
        have hm2 : w ∈ obsSaves (Overlord.obs n.log) := by rw [← savedOf_obs]; exact hm
        obtain ⟨hrec, _⟩ := hg.obs _ (mem_obsSaves hm2)
        obtain ⟨y, hy, he⟩ := List.mem_filterMap.1 hm
        have hy2 := h.log y hy
        cases y with
        | saveWal w0 okk =>
          cases okk with
          | false => simp at he
          | true =>
            simp at he; subst he
            exact ⟨fun l hk => ⟨hy2.1 l hk, fun hs => ((hrec l hk).2.2.2 hs).2⟩, hy2.2⟩
        | _ => simp at he

theorem nothingEarly_take {a : Address} {as as' : List (NAct T)} (h : NothingEarly a (as ++ as')) : NothingEarly a as := by
  intro as1 e cut as2 n m q h1 h2 h3 h4 h5
  exact h as1 e cut (as2 ++ as') n m q (by rw [h1]; simp) h2 h3 h4 h5

theorem node_run_split : ∀ (as1 : List (NAct T)) {as2 : List (NAct T)} {a : Address} {n n' : NodeSys T}, n.run a (as1 ++ as2) = some n' →
    ∃ n1, n.run a as1 = some n1 ∧ n1.run a as2 = some n' := by
  intro as1
  induction as1 with
  | nil => intro as2 a n n' h; exact ⟨n, rfl, h⟩
  | cons x as ih =>
    intro as2 a n n' h
    simp only [NodeSys.run, List.cons_append] at h ⊢
    split at h
    · cases h
    · rename_i n1 h1
      exact ih h

theorem along_take {ok : NodeSys T → NAct T → Prop} {a : Address} : ∀ (as1 : List (NAct T)) {as2 : List (NAct T)}
    {n : NodeSys T}, Along ok a n (as1 ++ as2) → Along ok a n as1 := by
  intro as1
  induction as1 with
  | nil => intro as2 n _; trivial
  | cons y as ih => intro as2 n h; exact ⟨h.1, fun n' hn => ih (h.2 n' hn)⟩

theorem along_imp {ok ok' : NodeSys T → NAct T → Prop} {a : Address} (h : ∀ n x, ok n x → ok' n x) : ∀ (as : List (NAct T))
    {n : NodeSys T}, Along ok a n as → Along ok' a n as := by
  intro as
  induction as with
  | nil => intro n _; trivial
  | cons y as ih => intro n g; exact ⟨h _ _ g.1, fun n' hn => ih (g.2 n' hn)⟩

theorem light_run {V : Crypto} {lists : Nat → List Node} {addr : Address} (hgl : GoodLists lists) : ∀ (k : Nat) (as : List (NAct T)) (n : NodeSys T),
    as.length = k → (NodeSys.new addr).run addr as = some n → Along (LightStep V lists addr) addr (NodeSys.new addr) as → NothingEarly addr as →
    LightNode V lists addr n := by
  intro k
  induction k with
  | zero =>
    intro as n hk hr _ _
    rw [List.length_eq_zero_iff] at hk
    subst hk; cases hr
    exact lightNode_new _ _ _
  | succ k ih =>
    intro as n hk hr ok he
    rcases List.eq_nil_or_concat as with rfl | ⟨as', x, rfl⟩
    · simp at hk
    rw [List.concat_eq_append] at *
    obtain ⟨n1, r1, r2⟩ := node_run_split as' hr
    have ok1 := along_take as' ok
    have inv := ih as' n1 (by simpa using hk) r1 ok1 (nothingEarly_take he)
    have hst := along_split as' ok r1
    simp only [NodeSys.run] at r2
    split at r2
    · cases r2
    rename_i n2 h2
    cases r2
    refine light_step hgl inv hst ?_ h2
    rintro e cut m q rfl hq hp hh
    have hd := Sign.arm_up h2
    have hau := ((inv.gen.up hd).st.1).auth hp
    have hun := hst.weighed m q hq (.inr ⟨hp, hh⟩)
    cases hrs : m.isRichStatus with
    | true => cases m <;> simp [OverlordMsg.isRichStatus] at hrs; trivial
    | false =>
      have hck := C21_processed_is_verified_partial addr as' n1 r1 (along_imp (fun _ _ h => h.answers) as' ok1) hd m q hq hrs hh
      have hck := hck.resolve_right (he as' e cut [] n1 m q rfl r1 hq hrs hh)
      obtain ⟨l1, c, i, l2, n0, e1, _, e2, e3, e4⟩ := hck
      have hsc : Implements V addr c := (along_split l1 (e1 ▸ ok1) e2).scheme
      rw [hau] at e4
      cases m with
      | signedVote sv =>
        unfold verifyTask at e4
        rw [hsc.sig, hsc.hash] at e4
        exact e4
      | aggregatedVote qc =>
        simp only [OverlordMsg.getHeight?, Option.some.injEq] at hh
        rw [← hh] at e4
        exact checked_convinces hsc hgl hun e4
      | signedChoke sc => exact hun
      | _ => trivial

end Light
end Overlord
