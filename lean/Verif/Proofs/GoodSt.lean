import Verif.Spec.Good
import Verif.Proofs.Outcomes
import Verif.Proofs.Store

/-! The State of a node in a good round: what is stored, and counting. -/

set_option linter.unusedSimpArgs false
set_option linter.unusedVariables false
set_option linter.unusedSectionVars false

namespace Overlord.Good
open M Spec

variable {T : Type}

section defs
variable (g : GoodRound T)

def HasQc (s : State T) (ty : VoteType) : Prop := ∃ qc, s.votes.getQcById g.height g.round ty = .ok qc
def Known (s : State T) : Prop := s.hashWithBlock.get? g.hash = some g.block
def Full (s : State T) : Prop := s.tryGetFullTxs g.hash = true
/-- The vote counted for `a` is for the block of the round. -/
def voted (s : State T) (ty : VoteType) (a : Address) : Bool :=
  match (poolD s.votes g.height g.round ty).byAddress.get? a with
  | some v => decide (v.vote.blockHash = g.hash)
  | none => false
def tP : SMRTrigger := stTrigger .proposal g.hash g.lock g.round g.height
def tQ (ty : VoteType) : SMRTrigger := stTrigger ty.toTrigger g.hash none g.round g.height
def GoodQc (ty : VoteType) (qc : AggregatedVote) : Prop :=
  qc.height = g.height ∧ qc.round = g.round ∧ qc.voteType = ty ∧ qc.blockHash = g.hash
/-- Votes of validators; those of live ones are for the block. -/
def GoodV (sv : SignedVote) : Prop :=
  sv.voter ∈ g.list.map Node.address ∧ (g.live sv.voter = true → sv.vote.blockHash = g.hash)
/-- The proposal of the round. -/
def IsProp (sp : SignedProposal T) : Prop :=
  sp.proposal.height = g.height ∧ sp.proposal.round = g.round ∧ sp.proposal.content = g.block ∧
  sp.proposal.blockHash = g.hash ∧ sp.proposal.lock.map PoLC.lockRound = g.lock ∧ sp.proposal.proposer = g.leader

/-- What holds of the State of a live node at the height of the round, except while it counts. -/
structure Inv0 (P : Option (SignedProposal T)) (s : State T) : Prop where
  height : s.height = g.height
  live : g.live s.address = true
  power : s.consensusPower = true
  running : s.stopped = false
  authority : s.authority = Authority.update g.list
  qc : ∀ ty qc, s.votes.getQcById g.height g.round ty = .ok qc → GoodQc g ty qc
  byV : ∀ ty, HasQc g s ty → ∃ q, s.votes.getQcByHash g.height g.hash ty = some q ∧ GoodQc g ty q
  byP : ∀ q, s.votes.getQcByHash g.height g.hash .prevote = some q → q.height = g.height ∧ q.blockHash = g.hash ∧
    (q.round = g.round → HasQc g s .prevote)
  byC : ∀ q, s.votes.getQcByHash g.height g.hash .precommit = some q → GoodQc g .precommit q ∧ HasQc g s .precommit
  prop : ∀ sp, s.proposals.get g.height g.round = .ok sp → P = some sp
  blk : ∀ c, s.hashWithBlock.get? g.hash = some c → c = g.block
  full : Full g s → Known g s
  pool : ∀ ty, PoolOk (GoodV g) g.height g.round ty (poolD s.votes g.height g.round ty)
  low : s.round ≤ g.round
  near : g.round ≤ s.round + FUTURE_ROUND_GAP
  calm : P = none → (∀ ty, ¬ HasQc g s ty) ∧ ∀ ty a, g.live a = true → voted g s ty a = false

/-- What holds of the State of a live node at the height of the round. -/
structure Inv (P : Option (SignedProposal T)) (s : State T) : Prop extends Inv0 g P s where
  poolQ : ∀ ty, Quorum g.list (voted g s ty) → HasQc g s ty

/-- Nothing stored for the height gets lost. -/
structure Grow (s s' : State T) : Prop where
  height : s'.height = s.height
  address : s'.address = s.address
  chokes : ∀ x qc, s.chokes.getQc x = some qc → s'.chokes.getQc x = some qc
  few : FaultyChokes g s → FaultyChokes g s'
  qc : ∀ x ty qc, s.votes.getQcById g.height x ty = .ok qc →
    ∃ qc', s'.votes.getQcById g.height x ty = .ok qc' ∧ qc'.blockHash = qc.blockHash
  blk : ∀ h c, s.hashWithBlock.get? h = some c → ∃ c', s'.hashWithBlock.get? h = some c'
  full : Full g s → Full g s'
  vote : ∀ ty a, voted g s ty a = true → voted g s' ty a = true
  prop : ∀ sp, s.proposals.get g.height g.round = .ok sp → s'.proposals.get g.height g.round = .ok sp
  round : s.round ≤ s'.round

/-- The triggers of the round, and when they are sent. -/
def TrigOk (P : Option (SignedProposal T)) (s : State T) (t : SMRTrigger) : Prop :=
  Known g s ∧ P ≠ none ∧ (t = tP g ∨ ∃ ty, t = tQ g ty ∧ HasQc g s ty)

/-- What an input has done. `src ty`: it brought a certificate of type `ty`. -/
structure Post (P : Option (SignedProposal T)) (src : VoteType → Prop) (s : State T) (eff : List (Effect T)) (s' : State T) : Prop where
  grow : Grow g s s'
  trig : ∀ t ∈ trigsOf eff, TrigOk g P s' t
  chk : ∀ h r x c, .spawnCheck h r x c ∈ eff →
    h = g.height ∧ r = g.round ∧ x = g.hash ∧ c = g.block ∧ Known g s' ∧ s'.round = g.round
  bc : ∀ m, .broadcast m ∈ eff → (∃ ty qc, m = .aggregatedVote qc ∧ GoodQc g ty qc ∧ HasQc g s' ty) ∨
    (∃ sp, m = .signedProposal sp ∧ P = some sp)
  tr : ∀ d m, .transmit d m ∈ eff → d = g.leader ∧ ∃ ty sv, m = .signedVote sv ∧ sv.voter = s.address ∧
    sv.vote = ⟨g.height, g.round, ty, g.hash⟩ ∧ P ≠ none
  ver : ∀ m a, .spawnVerify m a ∉ eff
  fwd : ∀ m, .toVerified m ∉ eff
  progV : HasQc g s' .prevote → Full g s' → (HasQc g s .prevote ∧ Full g s) ∨ tQ g .prevote ∈ trigsOf eff ∨
    HasQc g s' .precommit
  progC : HasQc g s' .precommit → Full g s' → (HasQc g s .precommit ∧ Full g s) ∨ tQ g .precommit ∈ trigsOf eff
  new : ∀ ty, HasQc g s' ty → HasQc g s ty ∨ src ty ∨ ∃ qc, .broadcast (.aggregatedVote qc) ∈ eff ∧ GoodQc g ty qc

end defs

variable {g : GoodRound T}

theorem Grow.refl (s : State T) : Grow g s s :=
  ⟨rfl, rfl, fun _ _ h => h, id, fun _ _ qc h => ⟨qc, h, rfl⟩, fun _ c h => ⟨c, h⟩, id, fun _ _ h => h, fun _ h => h, Nat.le_refl _⟩

theorem Grow.trans {s s1 s2 : State T} (h : Grow g s s1) (h' : Grow g s1 s2) : Grow g s s2 where
  height := h'.height.trans h.height
  address := h'.address.trans h.address
  chokes := fun x qc hq => h'.chokes x qc (h.chokes x qc hq)
  few := fun hq => h'.few (h.few hq)
  qc := fun x ty qc hq => by
    obtain ⟨q1, h1, h2⟩ := h.qc x ty qc hq
    obtain ⟨q2, h3, h4⟩ := h'.qc x ty q1 h1
    exact ⟨q2, h3, h4.trans h2⟩
  blk := fun k c hc => by
    obtain ⟨c1, h1⟩ := h.blk k c hc
    exact h'.blk k c1 h1
  full := fun hf => h'.full (h.full hf)
  vote := fun ty a hv => h'.vote ty a (h.vote ty a hv)
  prop := fun sp hp => h'.prop sp (h.prop sp hp)
  round := Nat.le_trans h.round h'.round

theorem Grow.hasQc {s s' : State T} (h : Grow g s s') {ty : VoteType} (hq : HasQc g s ty) : HasQc g s' ty := by
  obtain ⟨qc, hq⟩ := hq
  obtain ⟨q, h1, _⟩ := h.qc _ _ _ hq
  exact ⟨q, h1⟩

theorem Grow.known {P : Option (SignedProposal T)} {s s' : State T} (h : Grow g s s') (hi : Inv0 g P s') (hk : Known g s) : Known g s' := by
  obtain ⟨c, hc⟩ := h.blk _ _ hk
  rw [hi.blk c hc] at hc
  exact hc

theorem Grow.trigOk {P : Option (SignedProposal T)} {s s' : State T} (h : Grow g s s') (hi : Inv0 g P s') {t : SMRTrigger}
    (ht : TrigOk g P s t) : TrigOk g P s' t := by
  refine ⟨h.known hi ht.1, ht.2.1, ?_⟩
  rcases ht.2.2 with h1 | ⟨ty, h1, h2⟩
  · exact .inl h1
  · exact .inr ⟨ty, h1, h.hasQc h2⟩

theorem Grow.lockStored {P : Option (SignedProposal T)} {s s' : State T} (h : Grow g s s') (hi : Inv0 g P s) {lr : Option Nat} (hl : LockStored s lr) :
    LockStored s' lr := by
  cases lr with
  | none => trivial
  | some x =>
    obtain ⟨qc, c, h1, h2⟩ := hl
    rw [hi.height] at h1
    obtain ⟨qc', h3, h4⟩ := h.qc _ _ _ h1
    obtain ⟨c', h5⟩ := h.blk _ _ h2
    refine ⟨qc', c', ?_, ?_⟩
    · rw [h.height, hi.height]; exact h3
    · rw [h4]; exact h5

theorem Grow.fromStored {P : Option (SignedProposal T)} {s s' : State T} (h : Grow g s s') (hi : Inv0 g P s) {f : FromWhere} (hl : FromStored s f) :
    FromStored s' f := by
  have key : ∀ x ty, (∃ qc, s.votes.getQcById s.height x ty = .ok qc) → ∃ qc, s'.votes.getQcById s'.height x ty = .ok qc := by
    rintro x ty ⟨qc, h1⟩
    rw [hi.height] at h1
    obtain ⟨qc', h3, _⟩ := h.qc _ _ _ h1
    exact ⟨qc', by rw [h.height, hi.height]; exact h3⟩
  cases f with
  | prevoteQC x => exact key _ _ hl
  | precommitQC x => exact hl.imp id (key _ _)
  | chokeQC x =>
    obtain ⟨qc, h1⟩ := hl
    exact ⟨qc, h.chokes _ _ h1⟩

theorem trigsOf_append (l l' : List (Effect T)) : trigsOf (l ++ l') = trigsOf l ++ trigsOf l' := by
  simp [trigsOf]

theorem Post.trans {P : Option (SignedProposal T)} {src src' : VoteType → Prop} {s s1 s2 : State T} {eff eff' : List (Effect T)}
    (h : Post g P src s eff s1) (h' : Post g P src' s1 eff' s2) (hi : Inv0 g P s2) :
    Post g P (fun ty => src ty ∨ src' ty) s (eff ++ eff') s2 where
  grow := h.grow.trans h'.grow
  trig := by
    intro t ht
    rw [trigsOf_append, List.mem_append] at ht
    rcases ht with ht | ht
    · exact h'.grow.trigOk hi (h.trig t ht)
    · exact h'.trig t ht
  chk := by
    intro k r x c hm
    rcases List.mem_append.1 hm with hm | hm
    · obtain ⟨h1, h2, h3, h4, h5, h6⟩ := h.chk _ _ _ _ hm
      have := h'.grow.round
      have := hi.low
      exact ⟨h1, h2, h3, h4, h'.grow.known hi h5, by omega⟩
    · exact h'.chk _ _ _ _ hm
  bc := by
    intro m hm
    rcases List.mem_append.1 hm with hm | hm
    · rcases h.bc _ hm with ⟨ty, qc, h1, h2, h3⟩ | h1
      · exact .inl ⟨ty, qc, h1, h2, h'.grow.hasQc h3⟩
      · exact .inr h1
    · exact h'.bc _ hm
  tr := by
    intro d m hm
    rcases List.mem_append.1 hm with hm | hm
    · exact h.tr _ _ hm
    · have := h'.tr _ _ hm
      rw [h.grow.address] at this
      exact this
  ver := by intro m a hm; rcases List.mem_append.1 hm with hm | hm; exacts [h.ver _ _ hm, h'.ver _ _ hm]
  fwd := by intro m hm; rcases List.mem_append.1 hm with hm | hm; exacts [h.fwd _ hm, h'.fwd _ hm]
  progV := by
    intro h1 h2
    rw [trigsOf_append, List.mem_append]
    rcases h'.progV h1 h2 with ⟨h3, h4⟩ | h3 | h3
    · rcases h.progV h3 h4 with h5 | h5 | h5
      · exact .inl h5
      · exact .inr (.inl (.inl h5))
      · exact .inr (.inr (h'.grow.hasQc h5))
    · exact .inr (.inl (.inr h3))
    · exact .inr (.inr h3)
  progC := by
    intro h1 h2
    rw [trigsOf_append, List.mem_append]
    rcases h'.progC h1 h2 with ⟨h3, h4⟩ | h3
    · rcases h.progC h3 h4 with h5 | h5
      · exact .inl h5
      · exact .inr (.inl h5)
    · exact .inr (.inr h3)
  new := by
    intro ty hq
    rcases h'.new ty hq with h1 | h1 | ⟨qc, h1, h2⟩
    · rcases h.new ty h1 with h2 | h2 | ⟨qc, h2, h3⟩
      · exact .inl h2
      · exact .inr (.inl (.inl h2))
      · exact .inr (.inr ⟨qc, List.mem_append.2 (.inl h2), h3⟩)
    · exact .inr (.inl (.inr h1))
    · exact .inr (.inr ⟨qc, List.mem_append.2 (.inr h1), h2⟩)

/-! ## Counting -/

theorem quorum_false (l : List Node) (p : Address → Bool) (h : ∀ n ∈ l, p n.address = false) : ¬ Quorum l p := by
  have : weight l p = 0 := by
    have := weight_congr l p (fun _ => false) (fun n hn => h n hn)
    rw [this]
    simp [weight]
  unfold Quorum
  omega

theorem quorum_congr {l : List Node} {p q : Address → Bool} (h : ∀ a, p a = q a) : Quorum l p ↔ Quorum l q := by
  have : p = q := funext h
  rw [this]

theorem quorum_mono {l : List Node} {p q : Address → Bool} (hq : Quorum l p) (h : ∀ n ∈ l, p n.address = true → q n.address = true) :
    Quorum l q := by
  have := weight_mono l p q h
  unfold Quorum at *
  omega

theorem quorum_exists {l : List Node} {p : Address → Bool} (h : Quorum l p) : ∃ n ∈ l, p n.address = true := by
  have : 0 < weight l p := by unfold Quorum at h; omega
  exact exists_of_weight_pos l p this

theorem quorum_meet {l : List Node} {p q : Address → Bool} (h : Quorum l p) (h' : Quorum l q) :
    ∃ n ∈ l, p n.address = true ∧ q n.address = true := by
  have h1 := weight_inter l p q
  have : 0 < weight l (fun a => p a && q a) := by unfold Quorum at *; omega
  obtain ⟨n, hn, h2⟩ := exists_of_weight_pos l _ this
  rw [Bool.and_eq_true] at h2
  exact ⟨n, hn, h2⟩

section count
variable (hg : g.Ok)
include hg

theorem voted_iff {P : Option (SignedProposal T)} {s : State T} (hs : Inv0 g P s) (ty : VoteType) (a : Address) :
    voted g s ty a = true ↔ a ∈ ((poolD s.votes g.height g.round ty).byHash.get? g.hash).getD [] := by
  rw [(hs.pool ty).inv.mem]
  unfold voted
  split
  · rename_i v hv; simp [hv]
  · rename_i hv; simp [hv]

/-- Counting finds the block exactly if a quorum voted for it, and nothing else. -/
theorem count_spec {P : Option (SignedProposal T)} {s : State T} (hs : Inv0 g P s) (hr : s.round = g.round) (sh : Shuffle) (ty : VoteType) :
    (¬ Quorum g.list (voted g s ty) ∧ (countingVote sh s.authority s.votes s.height s.round ty = .ok none ∨
      countingVote sh s.authority s.votes s.height s.round ty = .error .storageErr)) ∨
    (Quorum g.list (voted g s ty) ∧ countingVote sh s.authority s.votes s.height s.round ty = .ok (some g.hash) ∧
      ∃ vs, s.votes.getVotes sh s.height s.round ty g.hash = .ok vs) := by
  have hp := hs.pool ty
  rw [hs.authority, hs.height, hr]
  unfold countingVote
  rw [getVoteMap_pool]
  by_cases he : (poolD s.votes g.height g.round ty).byHash = []
  · rw [if_pos he]
    refine .inl ⟨quorum_false _ _ fun n hn => ?_, .inr rfl⟩
    cases hv : voted g s ty n.address with
    | false => rfl
    | true => rw [voted_iff hg hs, he] at hv; simp at hv
  · rw [if_neg he]
    dsimp only
    have hset : ∀ p ∈ (poolD s.votes g.height g.round ty).byHash, p.2.Nodup ∧ (∀ a ∈ p.2, a ∈ g.list.map Node.address) ∧
        ∀ a ∈ p.2, g.live a = true → p.1 = g.hash := by
      rintro ⟨k, set⟩ hm
      have hgt := AMap.get?_of_mem _ hp.inv.hashNodup hm
      have hmem : ∀ a ∈ set, ∃ v, (poolD s.votes g.height g.round ty).byAddress.get? a = some v ∧ v.vote.blockHash = k := by
        intro a ha
        have := (hp.inv.mem k a).1 (by rw [hgt]; exact ha)
        exact this
      refine ⟨(hp.inv.setNodup _ _ hgt).1, fun a ha => ?_, fun a ha hl => ?_⟩
      · obtain ⟨v, h1, _⟩ := hmem a ha
        have := hp.all _ (AMap.mem_of_get? _ h1)
        have h2 := this.2.2.2.2.1
        rw [this.2.2.2.1] at h2
        exact h2
      · obtain ⟨v, h1, h2⟩ := hmem a ha
        have := hp.all _ (AMap.mem_of_get? _ h1)
        have h3 := this.2.2.2.2.2
        rw [this.2.2.2.1] at h3
        rw [← h2]
        exact h3 hl
    have hb := total_bound hg.sized
    have htot : (Authority.update g.list).voteWeightSum = total g.list := by
      rw [update_voteWeightSum, Nat.mod_eq_of_lt (by omega)]
    have hw : ∀ p ∈ (poolD s.votes g.height g.round ty).byHash, (p.2.map (weightIn g.list)).sum = weight g.list (fun a => decide (a ∈ p.2)) :=
      fun p hm => sum_weightIn _ hg.distinct _ (hset p hm).1 (hset p hm).2.1
    rw [countLoop_eq sh _ _ (fun l => (l.map (weightIn g.list)).sum)]
    rotate_left
    · intro p hm
      have hm := (sh.perm _).subset hm
      rw [sumWeights32_ok _ hg.distinct _ (fun a ha => (hset p hm).2.1 a ((sh.perm _).subset ha)) 0 (by decide),
        Nat.zero_add, sum_perm ((sh.perm p.2).map _), Nat.mod_eq_of_lt]
      have := weight_le_total g.list (fun a => decide (a ∈ p.2))
      have := hw p hm
      have := hg.small
      unfold U32; omega
    have hq : ∀ p ∈ (poolD s.votes g.height g.round ty).byHash,
        decide (((p.2.map (weightIn g.list)).sum * 3) % U64 > ((Authority.update g.list).voteWeightSum * 2) % U64) = true ↔
          Quorum g.list (fun a => decide (a ∈ p.2)) := by
      intro p hm
      have := weight_le_total g.list (fun a => decide (a ∈ p.2))
      rw [decide_eq_true_eq, hw p hm, htot, Nat.mod_eq_of_lt (by omega), Nat.mod_eq_of_lt (by omega)]
      unfold Quorum; omega
    cases hf : (sh.run (poolD s.votes g.height g.round ty).byHash).find? (fun p => decide (((p.2.map (weightIn g.list)).sum * 3) % U64 > ((Authority.update g.list).voteWeightSum * 2) % U64)) with
    | none =>
      refine .inl ⟨fun hQ => ?_, .inl rfl⟩
      rw [List.find?_eq_none] at hf
      obtain ⟨n, hn, h1⟩ := quorum_exists hQ
      rw [voted_iff hg hs] at h1
      cases hgt : (poolD s.votes g.height g.round ty).byHash.get? g.hash with
      | none => rw [hgt] at h1; simp at h1
      | some set =>
        have hm := AMap.mem_of_get? _ hgt
        refine hf _ ((sh.perm _).symm.subset hm) ((hq _ hm).2 ?_)
        refine (quorum_congr fun a => ?_).1 hQ
        rw [Bool.eq_iff_iff, voted_iff hg hs, hgt]
        simp
    | some p =>
      have hm := (sh.perm _).subset (List.mem_of_find?_eq_some hf)
      have hd := List.find?_some hf
      have hQ := (hq p hm).1 hd
      obtain ⟨n, hn, h1, h2⟩ := quorum_meet hQ hg.quorum
      have h1 := of_decide_eq_true h1
      have hk := (hset p hm).2.2 _ h1 h2
      have hgt := AMap.get?_of_mem _ hp.inv.hashNodup (k := p.1) (v := p.2) hm
      rw [hk] at hgt
      refine .inr ⟨(quorum_congr fun a => ?_).1 hQ, ?_, ?_⟩
      · rw [Bool.eq_iff_iff, voted_iff hg hs, hgt]
        simp
      · simp [hk]
      · rw [getVotes_pool]
        unfold Votes.getVotes
        rw [hgt]
        obtain ⟨vs, h3, _⟩ := mapM_get (f := fun a => (poolD s.votes g.height g.round ty).byAddress.get? a) (sh.run p.2)
          (fun a ha => by
            have ha := (sh.perm _).subset ha
            obtain ⟨v, h4, _⟩ := (hp.inv.mem g.hash a).1 (by rw [hgt]; exact ha)
            rw [h4]; rfl)
          (fun a v h => by
            have := hp.all _ (AMap.mem_of_get? _ h)
            exact this.2.2.2.1)
        exact ⟨vs, by simp [h3]⟩

end count

end Overlord.Good
