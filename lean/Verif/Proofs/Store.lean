import Verif.Proofs.StateInv
import Verif.Proofs.Collection

/-! What a node stores is filed under its own height, round, type, hash and sender; and everything stored satisfies
what everything that was put in satisfied. -/

set_option linter.unusedSimpArgs false
set_option linter.unusedVariables false
set_option linter.unusedSectionVars false

namespace Overlord
open M Spec

section
variable {K V : Type} [DecidableEq K]

theorem AMap.mem_insert {m : AMap K V} {k : K} {v : V} {p : K × V} (h : p ∈ m.insert k v) :
    p = (k, v) ∨ p ∈ m := by
  induction m with
  | nil => simp [AMap.insert] at h; exact .inl h
  | cons q m ih =>
    obtain ⟨k0, v0⟩ := q
    simp only [AMap.insert] at h
    split at h
    · rcases List.mem_cons.1 h with h | h
      · exact .inl h
      · exact .inr (by simp [h])
    · rcases List.mem_cons.1 h with h | h
      · exact .inr (by simp [h])
      · rcases ih h with h | h
        · exact .inl h
        · exact .inr (by simp [h])

theorem AMap.getD_all {m : AMap K V} {k : K} {d : V} {P : V → Prop} (hd : P d) (h : ∀ p ∈ m, p.1 = k → P p.2) :
    P ((m.get? k).getD d) := by
  cases hg : m.get? k with
  | none => exact hd
  | some v => exact h _ (AMap.mem_of_get? _ hg) rfl

end

/-- Votes filed in the pool of a height, round and type. -/
structure PoolOk (Pv : SignedVote → Prop) (h r : Nat) (ty : VoteType) (vs : Votes) : Prop where
  inv : PoolInv vs (fun a => vs.byAddress.get? a)
  all : ∀ p ∈ vs.byAddress, p.2.vote.height = h ∧ p.2.vote.round = r ∧ p.2.vote.voteType = ty ∧ p.2.voter = p.1 ∧
    Pv p.2

theorem PoolOk.new (Pv : SignedVote → Prop) (h r : Nat) (ty : VoteType) : PoolOk Pv h r ty .new :=
  ⟨by simpa [Votes.new] using pool_new_inv, by simp [Votes.new]⟩

theorem PoolInv.self {vs : Votes} {f : Address → Option SignedVote} (h : PoolInv vs f) :
    PoolInv vs (fun a => vs.byAddress.get? a) := by
  have : f = (fun a => vs.byAddress.get? a) := by funext a; exact (h.addr a).symm
  exact this ▸ h

theorem PoolOk.insert {Pv : SignedVote → Prop} {h r : Nat} {ty : VoteType} {vs : Votes} (hp : PoolOk Pv h r ty vs)
    {sv : SignedVote} (h1 : sv.vote.height = h) (h2 : sv.vote.round = r) (h3 : sv.vote.voteType = ty) (h4 : Pv sv) :
    PoolOk Pv h r ty (vs.insert sv.vote.blockHash sv.voter sv) := by
  refine ⟨(pool_insert_inv vs _ hp.inv sv).self, fun p hm => ?_⟩
  unfold Votes.insert at hm
  split at hm
  · exact hp.all p hm
  · rcases AMap.mem_insert hm with rfl | hm
    · exact ⟨h1, h2, h3, rfl, h4⟩
    · exact hp.all p hm

/-- Certificates filed under a height. -/
def QcsOk (Pq : AggregatedVote → Prop) (h : Nat) (C : AggregatedVote → Prop) (q : QuorumCertificate) : Prop :=
  ∀ ty qc, q.get ty = some qc → qc.height = h ∧ qc.voteType = ty ∧ C qc ∧ Pq qc

/-- The vote collector is in order. -/
structure VStore (Pv : SignedVote → Prop) (Pq : AggregatedVote → Prop) (c : VoteCollector) : Prop where
  pool : ∀ p ∈ c, ∀ q ∈ p.2.general, ∀ ty, PoolOk Pv p.1 q.1 ty (q.2.votes ty)
  qc : ∀ p ∈ c, ∀ q ∈ p.2.general, QcsOk Pq p.1 (fun qc => qc.round = q.1) q.2.qc
  hash : ∀ p ∈ c, ∀ q ∈ p.2.qcByHash, QcsOk Pq p.1 (fun qc => qc.blockHash = q.1) q.2

theorem VStore.nil (Pv : SignedVote → Prop) (Pq : AggregatedVote → Prop) : VStore Pv Pq [] :=
  ⟨by simp, by simp, by simp⟩

theorem QcsOk.new {Pq : AggregatedVote → Prop} {h : Nat} {C : AggregatedVote → Prop} : QcsOk Pq h C .new := by
  intro ty qc hq; rw [qc_new_get] at hq; cases hq

theorem QcsOk.set {Pq : AggregatedVote → Prop} {h : Nat} {C : AggregatedVote → Prop} {q : QuorumCertificate}
    (hq : QcsOk Pq h C q) {qc : AggregatedVote} (h1 : qc.height = h) (h2 : C qc) (h3 : Pq qc) :
    QcsOk Pq h C (q.set qc) := by
  intro ty x hx
  rw [qc_get_set] at hx
  split at hx
  · rename_i ht; simp only [Option.some.injEq] at hx; subst hx; exact ⟨h1, ht, h2, h3⟩
  · exact hq ty x hx

theorem VStore.insertVote {Pv : SignedVote → Prop} {Pq : AggregatedVote → Prop} {c : VoteCollector}
    (h : VStore Pv Pq c) {sv : SignedVote} (hv : Pv sv) :
    VStore Pv Pq (c.insertVote sv.vote.blockHash sv sv.voter) := by
  have hget : ∀ (P : VoteRoundCollector → Prop), P .new → (∀ p ∈ c, p.1 = sv.vote.height → P p.2) →
      P ((AMap.get? c sv.vote.height).getD .new) := fun P h1 h2 => AMap.getD_all h1 h2
  unfold VoteCollector.insertVote
  refine ⟨fun p hp q hq ty => ?_, fun p hp q hq => ?_, fun p hp q hq => ?_⟩
  · rcases AMap.mem_insert hp with rfl | hp
    · simp only [VoteRoundCollector.insertVote] at hq
      rcases AMap.mem_insert hq with rfl | hq
      · rw [votes_insertVote]
        have hold : PoolOk Pv sv.vote.height sv.vote.round ty
            ((((AMap.get? c sv.vote.height).getD .new).general.get? sv.vote.round).getD .new |>.votes ty) := by
          refine AMap.getD_all (P := fun rc : RoundCollector => PoolOk Pv sv.vote.height sv.vote.round ty (rc.votes ty)) ?_ ?_
          · cases ty <;> exact .new ..
          · intro q hq he
            have := hget (fun v => ∀ q ∈ v.general, PoolOk Pv sv.vote.height q.1 ty (q.2.votes ty))
              (by simp [VoteRoundCollector.new]) (fun p hp hk q hq => hk ▸ h.pool p hp q hq ty)
            have := this q hq
            rwa [he] at this
        split
        · rename_i ht; exact hold.insert rfl rfl ht hv
        · exact hold
      · exact hget (fun v => ∀ q ∈ v.general, PoolOk Pv sv.vote.height q.1 ty (q.2.votes ty))
          (by simp [VoteRoundCollector.new]) (fun p hp hk q hq => hk ▸ h.pool p hp q hq ty) q hq
    · exact h.pool p hp q hq ty
  · rcases AMap.mem_insert hp with rfl | hp
    · have key := hget (fun v => ∀ q ∈ v.general, QcsOk Pq sv.vote.height (fun qc => qc.round = q.1) q.2.qc)
        (by simp [VoteRoundCollector.new]) (fun p hp hk q hq => hk ▸ h.qc p hp q hq)
      simp only [VoteRoundCollector.insertVote] at hq
      rcases AMap.mem_insert hq with rfl | hq
      · have : ∀ rc : RoundCollector, (rc.insertVote sv.vote.blockHash sv sv.voter).qc = rc.qc := by
          intro rc; unfold RoundCollector.insertVote; split <;> rfl
        rw [this]
        refine AMap.getD_all (P := fun rc : RoundCollector => QcsOk Pq sv.vote.height (fun qc => qc.round = sv.vote.round) rc.qc) ?_ ?_
        · exact .new
        · intro q hq he; have := key q hq; rwa [he] at this
      · exact key q hq
    · exact h.qc p hp q hq
  · rcases AMap.mem_insert hp with rfl | hp
    · simp only [VoteRoundCollector.insertVote] at hq
      exact hget (fun v => ∀ q ∈ v.qcByHash, QcsOk Pq sv.vote.height (fun qc => qc.blockHash = q.1) q.2)
        (by simp [VoteRoundCollector.new]) (fun p hp hk q hq => hk ▸ h.hash p hp q hq) q hq
    · exact h.hash p hp q hq

theorem VStore.setQc {Pv : SignedVote → Prop} {Pq : AggregatedVote → Prop} {c : VoteCollector}
    (h : VStore Pv Pq c) {qc : AggregatedVote} (hv : Pq qc) : VStore Pv Pq (c.setQc qc) := by
  have hget : ∀ (P : VoteRoundCollector → Prop), P .new → (∀ p ∈ c, p.1 = qc.height → P p.2) →
      P ((AMap.get? c qc.height).getD .new) := fun P h1 h2 => AMap.getD_all h1 h2
  have kp := fun ty => hget (fun v => ∀ q ∈ v.general, PoolOk Pv qc.height q.1 ty (q.2.votes ty))
    (by simp [VoteRoundCollector.new]) (fun p hp hk q hq => hk ▸ h.pool p hp q hq ty)
  have kq := hget (fun v => ∀ q ∈ v.general, QcsOk Pq qc.height (fun x => x.round = q.1) q.2.qc)
    (by simp [VoteRoundCollector.new]) (fun p hp hk q hq => hk ▸ h.qc p hp q hq)
  have kh := hget (fun v => ∀ q ∈ v.qcByHash, QcsOk Pq qc.height (fun x => x.blockHash = q.1) q.2)
    (by simp [VoteRoundCollector.new]) (fun p hp hk q hq => hk ▸ h.hash p hp q hq)
  unfold VoteCollector.setQc
  refine ⟨fun p hp q hq ty => ?_, fun p hp q hq => ?_, fun p hp q hq => ?_⟩
  · rcases AMap.mem_insert hp with rfl | hp
    · simp only [VoteRoundCollector.setQc] at hq
      rcases AMap.mem_insert hq with rfl | hq
      · have : ∀ (rc : RoundCollector) q, ({ rc with qc := q } : RoundCollector).votes ty = rc.votes ty := by
          intro rc q; cases ty <;> rfl
        rw [this]
        refine AMap.getD_all (P := fun rc : RoundCollector => PoolOk Pv qc.height qc.round ty (rc.votes ty)) ?_ ?_
        · cases ty <;> exact .new ..
        · intro q hq he; have := kp ty q hq; rwa [he] at this
      · exact kp ty q hq
    · exact h.pool p hp q hq ty
  · rcases AMap.mem_insert hp with rfl | hp
    · simp only [VoteRoundCollector.setQc] at hq
      rcases AMap.mem_insert hq with rfl | hq
      · refine QcsOk.set ?_ rfl rfl hv
        refine AMap.getD_all (P := fun rc : RoundCollector => QcsOk Pq qc.height (fun x => x.round = qc.round) rc.qc) .new ?_
        intro q hq he; have := kq q hq; rwa [he] at this
      · exact kq q hq
    · exact h.qc p hp q hq
  · rcases AMap.mem_insert hp with rfl | hp
    · simp only [VoteRoundCollector.setQc] at hq
      rcases AMap.mem_insert hq with rfl | hq
      · refine QcsOk.set ?_ rfl rfl hv
        refine AMap.getD_all (P := fun x => QcsOk Pq qc.height (fun y => y.blockHash = qc.blockHash) x) .new ?_
        intro q hq he; have := kh q hq; rwa [he] at this
      · exact kh q hq
    · exact h.hash p hp q hq

theorem VStore.sub {Pv : SignedVote → Prop} {Pq : AggregatedVote → Prop} {c c' : VoteCollector}
    (h : VStore Pv Pq c) (hs : ∀ p ∈ c', p ∈ c) : VStore Pv Pq c' :=
  ⟨fun p hp => h.pool p (hs p hp), fun p hp => h.qc p (hs p hp), fun p hp => h.hash p (hs p hp)⟩

theorem PoolOk.mono {Pv Pv' : SignedVote → Prop} {h r : Nat} {ty : VoteType} {vs : Votes} (hp : PoolOk Pv h r ty vs)
    (hv : ∀ x, Pv x → Pv' x) : PoolOk Pv' h r ty vs :=
  ⟨hp.inv, fun p hm => let ⟨a, b, c, d, f⟩ := hp.all p hm; ⟨a, b, c, d, hv _ f⟩⟩

theorem VStore.mono {Pv Pv' : SignedVote → Prop} {Pq Pq' : AggregatedVote → Prop} {c : VoteCollector}
    (h : VStore Pv Pq c) (hv : ∀ x, Pv x → Pv' x) (hq : ∀ x, Pq x → Pq' x) : VStore Pv' Pq' c :=
  ⟨fun p hp q hm ty => (h.pool p hp q hm ty).mono hv,
   fun p hp q hm ty x hx => let ⟨a, b, c, d⟩ := h.qc p hp q hm ty x hx; ⟨a, b, c, hq _ d⟩,
   fun p hp q hm ty x hx => let ⟨a, b, c, d⟩ := h.hash p hp q hm ty x hx; ⟨a, b, c, hq _ d⟩⟩

section
variable {T : Type}

/-- The proposal collector is in order. -/
def PStore (Pp : SignedProposal T → Prop) (c : ProposalCollector T) : Prop :=
  ∀ p ∈ c, ∀ q ∈ p.2, q.2.proposal.height = p.1 ∧ q.2.proposal.round = q.1 ∧ Pp q.2

theorem PStore.insert [DecidableEq T] {Pp : SignedProposal T → Prop} {c c' : ProposalCollector T} (h : PStore Pp c)
    {sp : SignedProposal T} {k r : Nat} (hi : c.insert k r sp = .ok c') (h1 : sp.proposal.height = k)
    (h2 : sp.proposal.round = r) (h3 : Pp sp) : PStore Pp c' := by
  unfold ProposalCollector.insert at hi
  dsimp only at hi
  split at hi
  · split at hi
    · simp only [Except.ok.injEq] at hi; exact hi ▸ h
    · cases hi
  · simp only [Except.ok.injEq] at hi
    subst hi
    intro p hp q hq
    rcases AMap.mem_insert hp with rfl | hp
    · rcases AMap.mem_insert hq with rfl | hq
      · exact ⟨h1, h2, h3⟩
      · exact AMap.getD_all (P := fun m : AMap Nat (SignedProposal T) => ∀ q ∈ m, q.2.proposal.height = k ∧
          q.2.proposal.round = q.1 ∧ Pp q.2) (by simp)
          (fun p hp (hk : p.1 = k) q hq => by have := h p hp q hq; rwa [hk] at this) q hq
    · exact h p hp q hq

theorem PStore.sub {Pp : SignedProposal T → Prop} {c c' : ProposalCollector T} (h : PStore Pp c)
    (hs : ∀ p ∈ c', p ∈ c) : PStore Pp c' := fun p hp => h p (hs p hp)

theorem PStore.mono {Pp Pp' : SignedProposal T → Prop} {c : ProposalCollector T} (h : PStore Pp c)
    (hp : ∀ x, Pp x → Pp' x) : PStore Pp' c := fun p hm q hq =>
  let ⟨a, b, c⟩ := h p hm q hq; ⟨a, b, hp _ c⟩

theorem PStore.get {Pp : SignedProposal T → Prop} {c : ProposalCollector T} (h : PStore Pp c) {k r : Nat}
    {sp : SignedProposal T} (hg : c.get k r = .ok sp) : sp.proposal.height = k ∧ sp.proposal.round = r ∧ Pp sp := by
  unfold ProposalCollector.get at hg
  split at hg
  · rename_i sp' h1
    simp only [Except.ok.injEq] at hg
    subst hg
    simp only [Option.bind_eq_some_iff] at h1
    obtain ⟨m, h2, h3⟩ := h1
    exact h _ (AMap.mem_of_get? _ h2) _ (AMap.mem_of_get? _ h3)
  · cases hg

theorem VStore.getQcById {Pv : SignedVote → Prop} {Pq : AggregatedVote → Prop} {c : VoteCollector}
    (h : VStore Pv Pq c) {k r : Nat} {ty : VoteType} {qc : AggregatedVote} (hg : c.getQcById k r ty = .ok qc) :
    qc.height = k ∧ qc.round = r ∧ qc.voteType = ty ∧ Pq qc := by
  rw [getQcById_iff, qcId] at hg
  simp only [Option.bind_eq_some_iff] at hg
  obtain ⟨v, h1, rc, h2, h3⟩ := hg
  obtain ⟨a, b, c, d⟩ := h.qc _ (AMap.mem_of_get? _ h1) _ (AMap.mem_of_get? _ h2) ty qc h3
  exact ⟨a, c, b, d⟩

theorem VStore.getQcByHash {Pv : SignedVote → Prop} {Pq : AggregatedVote → Prop} {c : VoteCollector}
    (h : VStore Pv Pq c) {k : Nat} {hash : Hash} {ty : VoteType} {qc : AggregatedVote}
    (hg : c.getQcByHash k hash ty = some qc) : qc.height = k ∧ qc.blockHash = hash ∧ qc.voteType = ty ∧ Pq qc := by
  unfold VoteCollector.getQcByHash at hg
  simp only [Option.bind_eq_some_iff] at hg
  obtain ⟨v, h1, q, h2, h3⟩ := hg
  obtain ⟨a, b, c, d⟩ := h.hash _ (AMap.mem_of_get? _ h1) _ (AMap.mem_of_get? _ h2) ty qc h3
  exact ⟨a, c, b, d⟩

theorem VStore.poolD {Pv : SignedVote → Prop} {Pq : AggregatedVote → Prop} {c : VoteCollector}
    (h : VStore Pv Pq c) (k r : Nat) (ty : VoteType) : PoolOk Pv k r ty (poolD c k r ty) := by
  unfold Overlord.poolD VoteCollector.pool
  cases h1 : AMap.get? c k with
  | none => exact .new ..
  | some v =>
    simp only [Option.bind_some]
    cases h2 : AMap.get? v.general r with
    | none => exact .new ..
    | some rc => exact h.pool _ (AMap.mem_of_get? _ h1) _ (AMap.mem_of_get? _ h2) ty

/-- The collectors of a state are in order. -/
structure Store (Pp : SignedProposal T → Prop) (Pv : SignedVote → Prop) (Pq : AggregatedVote → Prop)
    (s : State T) : Prop where
  props : PStore Pp s.proposals
  votes : VStore Pv Pq s.votes

theorem Store.mono {Pp Pp' : SignedProposal T → Prop} {Pv Pv' : SignedVote → Prop} {Pq Pq' : AggregatedVote → Prop}
    {s : State T} (h : Store Pp Pv Pq s) (hp : ∀ x, Pp x → Pp' x) (hv : ∀ x, Pv x → Pv' x) (hq : ∀ x, Pq x → Pq' x) :
    Store Pp' Pv' Pq' s := ⟨h.props.mono hp, h.votes.mono hv hq⟩

/-- What a message says about its content. -/
def MsgOk (Pp : SignedProposal T → Prop) (Pv : SignedVote → Prop) (Pq : AggregatedVote → Prop) :
    OverlordMsg T → Prop
  | .signedProposal sp => Pp sp
  | .signedVote sv => Pv sv
  | .aggregatedVote qc => Pq qc
  | _ => True

theorem Store.new {Pp : SignedProposal T → Prop} {Pv : SignedVote → Prop} {Pq : AggregatedVote → Prop}
    (addr : Address) (ih iv : Nat) (l : List Node) : Store Pp Pv Pq (State.new addr ih iv l) :=
  ⟨by intro p hp; simp [State.new] at hp, .nil ..⟩

theorem mem_adopted_proposals {sh : Shuffle} {c : ProposalCollector T} {k : Nat} {p : Nat × AMap Nat (SignedProposal T)}
    (h : p ∈ ((c.flush (k - 1)).getHeightProposals sh k).2) : p ∈ c := by
  unfold ProposalCollector.getHeightProposals ProposalCollector.flush at h
  split at h
  · exact List.mem_of_mem_filter (List.mem_of_mem_filter h)
  · exact List.mem_of_mem_filter h

theorem mem_adopted_votes {sh : Shuffle} {c : VoteCollector} {k : Nat} {p : Nat × VoteRoundCollector}
    (h : p ∈ ((c.flush (k - 1)).getHeightVotes sh k).2) : p ∈ c := by
  unfold VoteCollector.getHeightVotes VoteCollector.flush at h
  split at h
  · exact List.mem_of_mem_filter (List.mem_of_mem_filter h)
  · exact List.mem_of_mem_filter h

theorem Store.adopted {Pp : SignedProposal T → Prop} {Pv : SignedVote → Prop} {Pq : AggregatedVote → Prop}
    {s : State T} (h : Store Pp Pv Pq s) (sh : Shuffle) (status : Status) : Store Pp Pv Pq (s.adopted sh status) :=
  ⟨h.props.sub fun _ hp => mem_adopted_proposals hp, h.votes.sub fun _ hp => mem_adopted_votes hp⟩

theorem getAll_iff (q : QuorumCertificate) (qc : AggregatedVote) : qc ∈ q.getAll ↔ ∃ ty, q.get ty = some qc := by
  unfold QuorumCertificate.getAll
  simp only [List.mem_append, Option.mem_toList]
  constructor
  · rintro (h | h)
    · exact ⟨.prevote, h⟩
    · exact ⟨.precommit, h⟩
  · rintro ⟨ty, h⟩
    cases ty
    · exact .inl h
    · exact .inr h

/-- What is checked again on a new height is of that height, and was stored. -/
theorem Store.recheck {Pp : SignedProposal T → Prop} {Pv : SignedVote → Prop} {Pq : AggregatedVote → Prop}
    {s : State T} (h : Store Pp Pv Pq s) {sh : Shuffle} {status : Status} {m : OverlordMsg T}
    (hm : m ∈ s.recheck sh status) : m.getHeight? = some status.height ∧ MsgOk Pp Pv Pq m := by
  unfold State.recheck at hm
  rw [List.mem_append, List.mem_append] at hm
  rcases hm with (hm | hm) | hm
  · obtain ⟨sp, hs, rfl⟩ := List.mem_map.1 hm
    unfold ProposalCollector.getHeightProposals at hs
    split at hs
    · rename_i rc hg
      simp only [Option.getD_some] at hs
      obtain ⟨q, hq, rfl⟩ := List.mem_map.1 ((sh.perm _).mem_iff.1 hs)
      have := h.props _ (List.mem_of_mem_filter (AMap.mem_of_get? _ hg)) q hq
      exact ⟨by simp [OverlordMsg.getHeight?, this.1], this.2.2⟩
    · simp at hs
  · obtain ⟨sv, hs, rfl⟩ := List.mem_map.1 hm
    unfold VoteCollector.getHeightVotes at hs
    split at hs
    · rename_i v hg
      simp only [Option.getD_some] at hs
      obtain ⟨rc, hrc, hs⟩ := List.mem_flatMap.1 hs
      obtain ⟨q, hq, rfl⟩ := List.mem_map.1 ((sh.perm _).mem_iff.1 hrc)
      have hc := List.mem_of_mem_filter (AMap.mem_of_get? _ hg)
      have key : ∀ ty, sv ∈ (q.2.votes ty).getAllVotes sh → sv.vote.height = status.height ∧ Pv sv := by
        intro ty hmem
        obtain ⟨p, hp, rfl⟩ := List.mem_map.1 ((sh.perm _).mem_iff.1 hmem)
        have := (h.votes.pool _ hc q hq ty).all p hp
        exact ⟨this.1, this.2.2.2.2⟩
      rcases List.mem_append.1 hs with hs | hs
      · have := key .prevote hs; exact ⟨by simp [OverlordMsg.getHeight?, this.1], this.2⟩
      · have := key .precommit hs; exact ⟨by simp [OverlordMsg.getHeight?, this.1], this.2⟩
    · simp at hs
  · obtain ⟨qc, hs, rfl⟩ := List.mem_map.1 hm
    unfold VoteCollector.getHeightVotes at hs
    split at hs
    · rename_i v hg
      simp only [Option.getD_some] at hs
      obtain ⟨rc, hrc, hs⟩ := List.mem_flatMap.1 hs
      obtain ⟨q, hq, rfl⟩ := List.mem_map.1 ((sh.perm _).mem_iff.1 hrc)
      have hc := List.mem_of_mem_filter (AMap.mem_of_get? _ hg)
      obtain ⟨ty, hty⟩ := (getAll_iff _ _).1 hs
      have := h.votes.qc _ hc q hq ty qc hty
      exact ⟨by simp [OverlordMsg.getHeight?, this.1], this.2.2.2⟩
    · simp at hs

variable [ContentCodec T] [DecidableEq T]

/-- One micro-step, if what it puts into the collectors is all right. -/
theorem Store.micro {Pp : SignedProposal T → Prop} {Pv : SignedVote → Prop} {Pq : AggregatedVote → Prop}
    {e : Env T} {i : Input T} {s : State T} {eff : List (Effect T)} {s' : State T} (h : Store Pp Pv Pq s)
    (hm : Micro e i s eff s')
    (hp : ∀ sp, ProposalInput i s sp → Pp sp)
    (hv : ∀ sv, i = .verified (.signedVote sv) → Pv sv)
    (hc : ∀ sv, Micro e i s eff s' → .ownVote sv ∈ eff → Pv sv)
    (hq : ∀ qc, QcInput i s qc → Pq qc)
    (hg : ∀ qc, .broadcast (.aggregatedVote qc) ∈ eff → Micro e i s eff s' → Pq qc)
    (hw : ∀ b w lock, i = .start → e.walLoad = some (some b) → decWalInfo (T := T) b = .ok w → w.lock = some lock →
      Pq lock.lockVotes) : Store Pp Pv Pq s' := by
  have hm' := hm
  cases hm with
  | recvQc qc hi => exact ⟨h.props, h.votes.setQc (hq qc hi)⟩
  | genQc ty hash vs sig => exact ⟨h.props, h.votes.setQc (hg _ (by simp) hm')⟩
  | recvVote sv hi => exact ⟨h.props, h.votes.insertVote (hv sv hi)⟩
  | castVote ty hash lr lock sv hsv hi hl hvv ha =>
    refine ⟨h.props, ?_⟩
    dsimp only
    split
    · rename_i hl
      have : Pv sv := hc sv hm' (by simp [hl])
      have h2 := h.votes.insertVote this
      rw [hvv, ha] at h2; exact h2
    · exact h.votes
  | storeProposal sp ps hi _ _ _ _ hs => exact ⟨h.props.insert hs rfl rfl (hp sp hi), h.votes⟩
  | acceptProposal sp ps hi _ _ hh hr _ hs => exact ⟨h.props.insert hs hh hr (hp sp hi), h.votes⟩
  | adopt status => exact h.adopted _ _
  | restoreLock w b lock hi hl hd hk => exact ⟨h.props, h.votes.setQc (hw b w lock hi hl hd hk)⟩
  | _ => exact ⟨h.props, h.votes⟩

/-- Filing only. -/
abbrev Filed (s : State T) : Prop := Store (fun _ => True) (fun _ => True) (fun _ => True) s

theorem Filed.micro {e : Env T} {i : Input T} {s : State T} {eff : List (Effect T)} {s' : State T} (h : Filed s)
    (hm : Micro e i s eff s') : Filed s' :=
  Store.micro h hm (fun _ _ => trivial) (fun _ _ => trivial) (fun _ _ _ => trivial) (fun _ _ => trivial)
    (fun _ _ _ => trivial) (fun _ _ _ _ _ _ _ => trivial)

end

end Overlord
