import Verif.Proofs.GoodNet

/-! The beginning and the end of a good round. -/

set_option linter.unusedSimpArgs false
set_option linter.unusedVariables false
set_option linter.unusedSectionVars false

namespace Overlord.Good
open M Spec

variable {T : Type} {g : GoodRound T} {P P' : Option (SignedProposal T)} {q q' : VoteType → Prop} {a : Address} {D D' : OverlordMsg T → Prop}
  {L L' : List (Effect T)}

theorem ready_in (hg : g.Ok) {n : NodeSys T} (ha : g.live a = true) (h : Ready g a n) : NodeIn g none q a (fun _ => False) [] n := by
  have hno : ∀ ty, ¬ HasQc g n.st ty := fun ty ⟨qc, hq⟩ => h.noQc ty qc hq
  have hpool : ∀ ty, poolD n.st.votes g.height g.round ty = .new := fun ty => by unfold poolD; rw [h.noVote]; rfl
  have hvt : ∀ ty b, voted g n.st ty b = false := fun ty b => by unfold voted; rw [hpool]; rfl
  obtain ⟨i1, i2, i3, i4, i5⟩ := h.idle
  obtain ⟨s1, s2, s3⟩ := h.smr
  have hst : Inv g none n.st := by
    refine ⟨⟨h.height, by rw [h.addr]; exact ha, h.power, h.running, h.authority, fun ty qc hq => absurd hq (h.noQc ty qc), fun ty hq => absurd hq (hno ty), ?_, ?_, ?_,
      h.content, h.checked, fun ty => by rw [hpool]; exact .new .., ?_, ?_, fun _ => ⟨hno, fun ty b _ => hvt ty b⟩⟩, fun ty hQ => absurd hQ (quorum_false _ _ fun n _ => hvt ty _)⟩
    · intro qc hq
      obtain ⟨h1, h2, h3⟩ := h.oldQc qc hq
      exact ⟨h1, h2, fun h => absurd h h3⟩
    · intro qc hq; rw [h.noCommit] at hq; cases hq
    · intro sp hp; exact absurd hp (h.noProposal sp)
    · rcases h.entry with ⟨_, h1, _⟩ | ⟨lr, lp, f, ni, nc, _, h1, _⟩
      · exact Nat.le_of_eq h1
      · exact h1
    · rcases h.entry with ⟨_, h1, _⟩ | ⟨lr, lp, f, ni, nc, _, _, h1, _⟩
      · rw [h1]; exact Nat.le_add_right _ _
      · exact h1
  refine ⟨⟨h.up, h.addr, hst, s1, s2, by rw [s3]; simp, fun _ => ⟨h.suitable, h.lock⟩, fun hc => absurd s3 hc, by rw [i1]; simp, by rw [i4]; simp, by rw [i5]; simp,
    by rw [i2]; simp, by rw [i3]; simp, fun ty hq => absurd hq (hno ty), fun hc => absurd s3 hc, fun hc => (by rw [s3] at hc; cases hc), fun hc => absurd hc (hno _),
    fun hc => absurd hc (hno _), fun hc => (by rw [s3] at hc; cases hc), by simp, ⟨by simp, by simp⟩, fun m hm => hm.elim⟩, ?_, ?_⟩
  · rintro (⟨⟨sp, hs⟩, _⟩ | hs)
    · exact absurd hs (h.noProposal sp)
    · exact absurd rfl hs.2
  · rcases h.entry with ⟨h1, h2, h3, h4, h5⟩ | ⟨lr, lp, f, ni, nc, h1, h2, h3, h4, h5, h6, h7⟩
    · exact .inl ⟨h2, h4, by rw [h3]; simp [h5], fun hc => absurd hc h5, by rw [h1]; simp⟩
    · exact .inr ⟨_, [], h1, ⟨rfl, h4, h5, h6, h7⟩, fun _ => rfl, by simp⟩

section
variable [ContentCodec T] [DecidableEq T]

theorem NetGood.init (hg : g.Ok) {N0 : NetSys T} (h : ∀ a, g.live a = true → Ready g a (N0.nodes a)) : NetGood g none N0 [] N0 := by
  have hd : ∀ a, doneSince N0 N0 a = [] := fun a => by unfold doneSince; simp
  have hno : ∀ c a m, ¬ Arrived N0 [] c a m := by
    rintro c a m ⟨as1, e, as2, N1, h1, -⟩
    simp at h1
  refine ⟨fun a _ => List.prefix_refl _, fun c a m _ hm => absurd hm (hno c a m), by simp, fun a ha => .inl ?_⟩
  rw [hd]
  exact (ready_in hg ha (h a ha)).less fun m ⟨_, c, _, hm⟩ => (hno c a m hm)

/-- A message that does as well as `m`: the same, or a certificate of the same type. -/
def Stands (m' m : OverlordMsg T) : Prop :=
  m' = m ∨ ∃ qc' qc, m' = .aggregatedVote qc' ∧ m = .aggregatedVote qc ∧ qc'.voteType = qc.voteType

omit [ContentCodec T] [DecidableEq T] in
theorem Stands.trans {m m' m'' : OverlordMsg T} (h1 : Stands m'' m') (h2 : Stands m' m) : Stands m'' m := by
  rcases h1 with rfl | ⟨a, b, rfl, rfl, h3⟩
  · exact h2
  · rcases h2 with rfl | ⟨c, d, h4, rfl, h5⟩
    · exact .inr ⟨a, b, rfl, rfl, h3⟩
    · cases h4
      exact .inr ⟨a, d, rfl, rfl, h3.trans h5⟩

omit [ContentCodec T] [DecidableEq T] in
theorem Stands.taken {m m' : OverlordMsg T} {s : State T} (h : Stands m' m) (ht : Taken g s m') : Taken g s m := by
  rcases h with rfl | ⟨a, b, rfl, rfl, h3⟩
  · exact ht
  · show HasQc g s b.voteType
    rw [← h3]; exact ht

/-- A node at the height, where what has arrived was not lost. -/
structure Heard (g : GoodRound T) (P : Option (SignedProposal T)) (N0 : NetSys T) (as : List (Address × NAct T)) (N : NetSys T) (b : Address) : Prop where
  inn : NodeIn g P (qNet g N0 N) b (fun _ => False) (doneSince N0 N b) (N.nodes b)
  got : ∀ m, dNet g N0 as b m → ∃ m', Stands m' m ∧ ((∃ x ∈ (N.nodes b).verifying, x.1 = m') ∨ m' ∈ (N.nodes b).verifiedQ ∨ Taken g (N.nodes b).st m')

/-- When all is delivered, everyone has committed. -/
theorem done_heard (hg : g.Ok) {N0 N : NetSys T} {as : List (Address × NAct T)}
    (hprop : ∀ sp, P = some sp → IsProp g sp ∧ .broadcast (.signedProposal sp) ∈ doneSince N0 N g.leader)
    (hnodes : ∀ b, g.live b = true → Heard g P N0 as N b ∨ NodeOut g P (qNet g N0 N) b (doneSince N0 N b) (N.nodes b)) (hd : Delivered g N0 N as)
    (ha : g.live a = true) : Comm g (doneSince N0 N a) := by
  obtain ⟨hd1, hd2⟩ := hd
  have set : ∀ b, g.live b = true → (h' : Heard g P N0 as N b) →
      Settled (N.nodes b) ∧ Entered g P b (N.nodes b) := by
    intro b hb h'
    have hs := hd2 b hb h'.inn.core.st.height
    refine ⟨hs, ?_⟩
    rcases h'.inn.shape with h1 | ⟨nri, post, h1, _⟩
    · exact h1
    · rw [hs.2.1] at h1; cases h1
  -- the leader has proposed
  have hP : P ≠ none := by
    rcases hnodes _ hg.leads with h1 | h1
    · exact (set _ hg.leads h1).2.prop rfl
    · exact h1.prop
  obtain ⟨sp, hsp⟩ := Option.ne_none_iff_exists'.1 hP
  obtain ⟨hip, hbc⟩ := hprop sp hsp
  -- what has been delivered is taken up
  have got : ∀ c b m, g.live c = true → (h' : Heard g P N0 as N b) → g.live b = true → c ≠ b →
      SentTo N0 N c b m → m.getHeight? = some g.height → Taken g (N.nodes b).st m := by
    intro c b m hc h' hb hne hm hh
    obtain ⟨s1, s2, s3, s4, s5, s6⟩ := (set b hb h').1
    rcases h'.got m ⟨hh, c, hc, hd1 c b m hc hb hne hm hh⟩ with ⟨m', hcv, ⟨x, h1, _⟩ | h1 | h1⟩
    · rw [s4] at h1; cases h1
    · rw [s3] at h1; cases h1
    · exact hcv.taken h1
  have full : ∀ b, g.live b = true → (h' : Heard g P N0 as N b) →
      Full g (N.nodes b).st ∧ (N.nodes b).sys.smr.step ≠ .propose := by
    intro b hb h'
    obtain ⟨⟨s1, s2, s3, s4, s5, s6⟩, hen⟩ := set b hb h'
    have hsup : Sup g P b (N.nodes b).st := by
      by_cases hl : b = g.leader
      · exact .inr ⟨hl, hP⟩
      · exact .inl ⟨⟨sp, got g.leader b (.signedProposal sp) hg.leads h' hb (fun h => hl h.symm) (.inl hbc) (congrArg some hip.1)⟩, hen.round⟩
    obtain ⟨_, k2, k3⟩ := h'.inn.prog hsup
    unfold Checks at k3
    rw [s1] at k2
    rw [s5, s6] at k3
    simp only [List.not_mem_nil, or_false, false_or] at k2 k3
    exact ⟨k3, k2⟩
  -- certificates reach everyone
  have spread : ∀ ty, qNet g N0 N ty → ∀ b, g.live b = true → (h' : Heard g P N0 as N b) →
      HasQc g (N.nodes b).st ty := by
    rintro ty ⟨c, qc, hc, h1, h2⟩ b hb h'
    by_cases hcb : c = b
    · subst hcb
      exact h'.inn.core.own ty qc h2 h1
    · have := got c b (.aggregatedVote qc) hc h' hb hcb (.inl h2) (congrArg some h1.1)
      have : HasQc g (N.nodes b).st qc.voteType := this
      rwa [h1.2.2.1] at this
  -- votes of everyone make a certificate
  have quorum : ∀ ty, (∀ b, g.live b = true → Heard g P N0 as N b) →
      (∀ b, g.live b = true → Vtd g b (doneSince N0 N b) (N.nodes b).st ty ∨ HasQc g (N.nodes b).st ty) → qNet g N0 N ty := by
    intro ty hin hv
    by_cases hex : ∃ b, g.live b = true ∧ HasQc g (N.nodes b).st ty
    · obtain ⟨b, hb, hq⟩ := hex
      exact (hin b hb).inn.core.has ty hq
    · have hl := hin _ hg.leads
      refine hl.inn.core.has ty (hl.inn.core.st.poolQ ty (quorum_mono hg.quorum fun n hn hlive => ?_))
      rcases hv n.address hlive with (⟨h1, sv, h2, h3, h4⟩ | ⟨h1, h2⟩) | h1
      · have := got n.address g.leader (.signedVote sv) hlive hl hg.leads h1 (.inr h4) (by simp [OverlordMsg.getHeight?, h3])
        have : voted g (N.nodes g.leader).st sv.vote.voteType sv.voter = true ∨ HasQc g (N.nodes g.leader).st sv.vote.voteType := this
        rw [h2, h3] at this
        rcases this with h5 | h5
        · exact h5
        · exact absurd ⟨_, hg.leads, h5⟩ hex
      · rw [h1] at h2 ⊢; exact h2
      · exact absurd ⟨_, hlive, h1⟩ hex
  -- the certificate that commits
  have hpc : qNet g N0 N .precommit := by
    refine Classical.byContradiction fun hno => ?_
    have hin : ∀ b, g.live b = true → Heard g P N0 as N b := by
      intro b hb
      rcases hnodes b hb with h1 | h1
      · exact h1
      · exact absurd h1.has hno
    have hnc : ∀ b, g.live b = true → ¬ HasQc g (N.nodes b).st .precommit := fun b hb hq => hno ((hin b hb).inn.core.has _ hq)
    have hpv : qNet g N0 N .prevote := by
      refine quorum .prevote hin fun b hb => ?_
      have h' := hin b hb
      rcases h'.inn.core.i2 (full b hb h').2 with ⟨ev, h1, _⟩ | h1 | h1 | h1
      · rw [(set b hb h').1.2.1] at h1; cases h1
      · exact .inl h1
      · exact .inr h1
      · exact absurd h1 (hnc b hb)
    refine hno (quorum .precommit hin fun b hb => ?_)
    have h' := hin b hb
    have hs := (set b hb h').1
    rcases h'.inn.core.i4 (spread _ hpv b hb h') (full b hb h').1 with h1 | h1 | h1 | h1
    · rw [hs.1] at h1; cases h1
    · rcases h'.inn.core.i3 h1 with ⟨ev, h2, _⟩ | h2 | h2
      · rw [hs.2.1] at h2; cases h2
      · exact .inl h2
      · exact .inr h2
    · exact .inr (h'.inn.core.i6 h1).1
    · exact .inr h1
  rcases hnodes a ha with h1 | h1
  · have hs := (set a ha h1).1
    rcases h1.inn.core.i5 (spread _ hpc a ha h1) (full a ha h1).1 with h2 | ⟨ev, h2, _⟩ | h2
    · rw [hs.1] at h2; cases h2
    · rw [hs.2.1] at h2; cases h2
    · exact h2
  · exact h1.comm

theorem NetGood.done (hg : g.Ok) {N0 N : NetSys T} {as : List (Address × NAct T)} (h : NetGood g P N0 as N) (hd : Delivered g N0 N as)
    (ha : g.live a = true) : Comm g (doneSince N0 N a) := by
  refine done_heard hg h.prop (fun b hb => ?_) hd ha
  rcases h.nodes b hb with h1 | h1
  · exact .inl ⟨h1.less fun _ h => h.elim, fun m hm => ⟨m, .inl rfl, h1.core.got m hm⟩⟩
  · exact .inr h1

end

end Overlord.Good
