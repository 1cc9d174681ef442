import Verif.Proofs.Signed

/-!
# Signatures that can not be forged (C56)
-/

set_option linter.unusedVariables false

namespace Overlord
open M Spec

variable {T : Type} [ContentCodec T] [DecidableEq T]

/-- **C56.** If signatures can not be forged: a vote in the name of a correct validator that a node counts (takes up for its current height) was
cast by this validator; a certificate that a node acts on, and the lock certificate in a proposal it acts on, stands for the votes of correct
validators that its bitmap names; if the bitmap is above the threshold, it is backed by more than two thirds of the weight. Messages that arrived
before the node reached their height are not verified at all (C21) and are excluded. -/
theorem C56_verified_is_genuine (lists : Nat → List Node) (correct : Address → Bool) (hl : GoodLists lists)
    (as : List (Address × NAct T)) (N : NetSys T) (hr : NetSys.new.run as = some N) (gs : GenuineSchedule lists correct as)
    (uf : AlongNet (fun N a x => correct a = true → Unforged correct N x) NetSys.new as)
    (a : Address) (ha : correct a = true) (hd : (N.nodes a).down = false) (hp : (N.nodes a).st.consensusPower = true)
    (m : OverlordMsg T) (q : List (OverlordMsg T)) (hq : (N.nodes a).verifiedQ = m :: q)
    (hh : m.getHeight? = some (N.nodes a).st.height) (he : ¬ ArrivedEarly a (stepsOf a as) m) :
    (∀ sv, m = .signedVote sv → VoteR sv.vote → correct sv.voter = true → (sv.voter, sv.vote) ∈ N.votes) ∧
    (∀ qc, m = .aggregatedVote qc ∨ (∃ sp l, m = .signedProposal sp ∧ sp.proposal.lock = some l ∧ l.lockVotes = qc ∧ qc.height = sp.proposal.height) →
      VoteR qc.toVote →
      (∀ v ∈ lists qc.height, selected (lists qc.height) qc.signature.addressBitmap v.address = true → correct v.address = true →
        (v.address, qc.toVote) ∈ N.votes) ∧
      (Quorum (lists qc.height) (selected (lists qc.height) qc.signature.addressBitmap) →
        Certified lists correct N.votes qc.voteType qc.height qc.round qc.blockHash)) := by
  by_cases hs : m.isRichStatus = true
  · cases m <;> simp [OverlordMsg.isRichStatus] at hs
    refine ⟨fun sv h => ?_, fun qc h => ?_⟩
    · cases h
    · rcases h with h | ⟨_, _, h, _⟩ <;> cases h
  rw [Bool.not_eq_true] at hs
  obtain ⟨c, hu, hv⟩ := Sign.checked_genuine hl hr gs uf ha hd hp hq hs hh he
  refine ⟨fun sv hm hvr hc => ?_, fun qc hm hvr => ?_⟩
  · subst hm; exact hu.single _ _ _ hvr hc hv
  · have hqc : verifyQc c qc (Authority.update (lists qc.height)) = true := by
      rcases hm with rfl | ⟨sp, l, rfl, h1, h2, h3⟩
      · simp only [OverlordMsg.getHeight?, Option.some.injEq] at hh
        rw [← hh] at hv; exact hv
      · simp only [OverlordMsg.getHeight?, Option.some.injEq] at hh
        rw [h3, hh]
        unfold verifyTask at hv
        simp only at hv
        split at hv
        · cases hv
        · rw [h1] at hv
          split at hv
          · rw [← h2]; exact hv
          · cases hv
    exact ⟨Sign.verified_named hl hu hvr hqc, fun hk => Sign.verified_cert hl hu ⟨hvr, hk⟩ hqc⟩

/-- **C44** (partial) from unforgeable signatures: instead of genuine messages it suffices that signatures can not be forged, that
correct nodes take up no message unverified (`NoneEarly`), and that the messages do not exploit what the code leaves unchecked (`Unchecked`:
thresholds of certificates, certificates inside chokes, fields of lock evidence).
Missing: as in C44. -/
theorem C44_agreement_from_signatures_partial (lists : Nat → List Node) (correct : Address → Bool) (hl : GoodLists lists) (few : FewFaulty lists correct)
    (as : List (Address × NAct T)) (N : NetSys T) (hr : NetSys.new.run as = some N)
    (signed : SignedSchedule lists correct as) (inTime : NoneEarly correct as) (keeps : KeepsLocks lists correct as)
    (a b : Address) (ha : correct a = true) (hb : correct b = true) (k : Nat) (c c' : Commit T) (r r' : Option Status)
    (h : .commitCall k c r ∈ (N.nodes a).log) (h' : .commitCall k c' r' ∈ (N.nodes b).log) :
    c.proof.blockHash = c'.proof.blockHash :=
  C44_agreement_partial lists correct hl few as N hr (Sign.signed_fair hl _ as N rfl hr signed inTime) keeps a b ha hb k c c' r r' h h'

/-! ### Examples -/

namespace NetDemo
open Sign

/-- A schedule with ideal signatures. -/
def ideally (l : List (UInt8 × List D)) : List (Address × NAct C) := sealed correct NetSys.new (sched l)

/-- The schedule of C44 with ideal signatures. -/
def signedRun : List (Address × NAct C) := ideally agreeing

theorem mem_sealed {T : Type} [ContentCodec T] [DecidableEq T] {correct : Address → Bool} : ∀ (as : List (Address × NAct T)) (N : NetSys T)
    {y : Address × NAct T}, y ∈ sealed correct N as → y ∈ as ∨ ∃ c i, y.2 = .verifyDone c i := by
  intro as
  induction as with
  | nil => intro N y h; cases h
  | cons z as ih =>
    obtain ⟨a, x⟩ := z
    intro N y h
    unfold sealed at h
    rcases List.mem_cons.1 h with rfl | h
    · cases x <;> first | exact .inl (List.mem_cons_self ..) | exact .inr ⟨_, _, rfl⟩
    · split at h
      · exact (ih _ h).imp_left (List.mem_cons_of_mem _)
      · cases h

/-- `Strong`, computed. -/
def strongB (qc : AggregatedVote) : Bool :=
  decide (qc.height < 2 ^ 64 ∧ qc.round < 2 ^ 64) &&
    decide (Quorum (lists qc.height) (selected (lists qc.height) qc.signature.addressBitmap))

theorem strongB_sound {qc : AggregatedVote} (h : strongB qc = true) : Strong lists qc := by
  simp only [strongB, Bool.and_eq_true] at h
  have h1 := of_decide_eq_true h.1
  exact ⟨h1, of_decide_eq_true h.2⟩

/-- `Unchecked` (for messages without chokes), computed. -/
def uncheckedB : OverlordMsg C → Bool
  | .signedVote sv => decide (sv.vote.height < 2 ^ 64 ∧ sv.vote.round < 2 ^ 64)
  | .aggregatedVote qc => strongB qc
  | .signedProposal sp => match sp.proposal.lock with
    | none => true
    | some l => strongB l.lockVotes && decide (l.lockVotes.voteType = .prevote ∧ l.lockVotes.height = sp.proposal.height ∧ l.lockVotes.round = l.lockRound)
  | .richStatus st => decide (st.authorityList = lists st.height)
  | .signedChoke _ => false
  | .stop => true

theorem uncheckedB_sound {votes : List (Address × Vote)} {m : OverlordMsg C} (h : uncheckedB m = true) : Unchecked lists correct votes m := by
  cases m with
  | signedVote sv =>
    have h1 : decide (sv.vote.height < 2 ^ 64 ∧ sv.vote.round < 2 ^ 64) = true := h
    have h2 := of_decide_eq_true h1
    exact h2
  | aggregatedVote qc => exact strongB_sound h
  | signedProposal sp =>
    intro l hl
    simp only [uncheckedB, hl, Bool.and_eq_true] at h
    exact ⟨strongB_sound h.1, of_decide_eq_true h.2⟩
  | richStatus st =>
    have h1 : decide (st.authorityList = lists st.height) = true := h
    have h2 := of_decide_eq_true h1
    exact h2
  | signedChoke sc => cases h
  | stop => trivial

/-- The part of `SignedStep` and of `InTime` that depends on the network, computed. -/
def signedB (N : NetSys C) (a : Address) (x : NAct C) : Bool :=
  !correct a || (inSyncB (N.nodes a) x && roundSmallB (N.nodes a) x && startOkB a (N.nodes a) x &&
    (match x with
    | .arm .verified _ _ => match (N.nodes a).verifiedQ with
      | m :: _ => uncheckedB m
      | [] => true
    | .arm (.raw m) _ _ => match m.getHeight? with
      | some k => decide (k ≤ (N.nodes a).st.height)
      | none => true
    | _ => true))

theorem signedB_time {N : NetSys C} {a : Address} {x : NAct C} (hb : signedB N a x = true) (hc : correct a = true) : InTime N a x := by
  simp only [signedB, hc, Bool.not_true, Bool.false_or, Bool.and_eq_true] at hb
  unfold InTime
  split
  · intro _ k hk
    have := hb.2
    simp only [hk] at this
    exact of_decide_eq_true this
  · trivial

theorem signedB_inTime {as : List (Address × NAct C)} (h : alongNetB signedB NetSys.new as = true) : NoneEarly correct as := by
  exact inTime_noneEarly (alongNetB_sound _ _ (fun N y hy hb hc => signedB_time hb hc) h)

theorem signedB_sound {l : List (UInt8 × List D)} (h : alongNetB signedB NetSys.new (ideally l) = true) : SignedSchedule lists correct (ideally l) := by
  have h1 : AlongNet (fun N a x => correct a = true → InSync (N.nodes a) x ∧ RoundSmall (N.nodes a) x ∧ StartOk a (N.nodes a) x ∧
      AnswersOk (N.nodes a) x ∧ SavesWork (N.nodes a) x ∧ GivenLists lists a (N.nodes a) x ∧
      UncheckedInput lists correct N.votes (N.nodes a) x) NetSys.new (ideally l) := by
    refine alongNetB_sound _ _ (fun N y hy hb hc => ?_) h
    simp only [signedB, hc, Bool.not_true, Bool.false_or, Bool.and_eq_true] at hb
    obtain ⟨⟨⟨h1, h2⟩, h3⟩, h4⟩ := hb
    refine ⟨inSyncB_sound h1, roundSmallB_sound h2, startOkB_sound h3, ?_⟩
    have hun : UncheckedInput lists correct N.votes (N.nodes y.1) y.2 := by
      unfold UncheckedInput
      split
      · rename_i hx
        rw [hx] at h4
        intro m q hq hm
        simp only [hq] at h4
        exact uncheckedB_sound h4
      · trivial
    refine ⟨?_, ?_, ?_, hun⟩ <;> clear hun h4 <;> rcases mem_sealed _ _ hy with hy | ⟨c, i, hy⟩
    · obtain ⟨a, d, rfl⟩ := mem_sched hy
      cases d <;> first | exact envN_answers _ _ | trivial
    · rw [hy]; trivial
    · obtain ⟨a, d, rfl⟩ := mem_sched hy
      cases d <;> first | (intro b; rfl) | trivial
    · rw [hy]; trivial
    · obtain ⟨a, d, rfl⟩ := mem_sched hy
      have hl : ∀ w k c st, (envN a w).commit k c = some st → st.authorityList = lists st.height := by
        intro w k c st hst
        simp only [envN, Option.some.injEq] at hst
        subst hst; rfl
      cases d <;> first | exact hl _ | exact ⟨hl _, fun _ => rfl⟩ | trivial
    · rw [hy]; trivial
  refine alongNet_and (fun N a x h1 h2 hc => ?_) _ _ h1 (sealed_unforged correct (sched l) NetSys.new)
  obtain ⟨g1, g2, g3, g4, g5, g6, g7⟩ := h1 hc
  exact ⟨g1, g2, g3, g4, g5, g6, h2 hc, g7⟩

/-- Two correct nodes commit, one of them after a crash; signatures are checked by the ideal scheme. -/
example : ∃ N, NetSys.new.run signedRun = some N ∧ SignedSchedule lists correct signedRun ∧ NoneEarly correct signedRun ∧
    KeepsLocks lists correct signedRun ∧ committed (N.nodes [1]) = [(9, [5])] ∧ committed (N.nodes [2]) = [(9, [5])] := by
  have hd : (match NetSys.new.run signedRun with
      | some N => decide (committed (N.nodes [1]) = [(9, [5])] ∧ committed (N.nodes [2]) = [(9, [5])])
      | none => false) = true := by decide +kernel
  have hs : alongNetB signedB NetSys.new signedRun = true := by decide +kernel
  split at hd
  · rename_i N hN
    exact ⟨N, hN, signedB_sound hs, signedB_inTime hs, keepsB_sound (by decide +kernel), of_decide_eq_true hd⟩
  · cases hd

/-- Validator 1 has verified a prevote certificate and is about to act on it; the certificate names the correct validator 2. -/
def aboutTo : List (UInt8 × List D) :=
  [(2, begin9), (1, begin9 ++ [.raw (.aggregatedVote (Q 0 .prevote [5])), .vdone])]

example : ∃ N, NetSys.new.run (ideally aboutTo) = some N ∧ GenuineSchedule lists correct (ideally aboutTo) ∧
    AlongNet (fun N a x => correct a = true → Unforged correct N x) NetSys.new (ideally aboutTo) ∧
    (N.nodes [1]).down = false ∧ (N.nodes [1]).st.consensusPower = true ∧ (N.nodes [1]).verifiedQ = [.aggregatedVote (Q 0 .prevote [5])] ∧
    (Q 0 .prevote [5]).height = (N.nodes [1]).st.height ∧ ¬ ArrivedEarly [1] (stepsOf [1] (ideally aboutTo)) (.aggregatedVote (Q 0 .prevote [5])) ∧
    ([2], (⟨9, 0, .prevote, [5]⟩ : Vote)) ∈ N.votes ∧
    Quorum (lists 9) (selected (lists 9) (Q 0 .prevote [5]).signature.addressBitmap) := by
  have hd : (match NetSys.new.run (ideally aboutTo) with
      | some N => decide ((N.nodes [1]).down = false ∧ (N.nodes [1]).st.consensusPower = true ∧
          (N.nodes [1]).verifiedQ = [.aggregatedVote (Q 0 .prevote [5])] ∧ (Q 0 .prevote [5]).height = (N.nodes [1]).st.height ∧
          ([2], (⟨9, 0, .prevote, [5]⟩ : Vote)) ∈ N.votes)
      | none => false) = true := by decide +kernel
  have hs : alongNetB signedB NetSys.new (ideally aboutTo) = true := by decide +kernel
  split at hd
  · rename_i N hN
    obtain ⟨h1, h2, h3, h4, h5⟩ := of_decide_eq_true hd
    have hss := signedB_sound hs
    have hf := signed_fair goodLists _ _ N rfl hN hss (signedB_inTime hs)
    refine ⟨N, hN, alongNet_mono (fun N a x h hc => ⟨(h hc).start, (h hc).answers, (h hc).saves, (h hc).given, (h hc).genuine⟩) _ _ hf,
      sealed_unforged _ _ _, h1, h2, h3, h4, ?_, h5, by decide +kernel⟩
    refine inTime_early (correct := correct) ?_ hN rfl rfl
    refine alongNetB_sound _ _ (fun N y hy hb hc => ?_) hs
    exact signedB_time hb hc
  · cases hd

end NetDemo
end Overlord
