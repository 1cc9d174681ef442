import Verif.Spec.Signed
import Verif.Props.Net
import Verif.Proofs.Progress
import Verif.Proofs.Codec

/-! Messages that passed the verification are genuine, if signatures can not be forged (used for C56). -/

set_option linter.unusedSimpArgs false
set_option linter.unusedVariables false
set_option linter.unusedSectionVars false

namespace Overlord
open M Spec

namespace Sign

variable {T : Type} [ContentCodec T] [DecidableEq T]

theorem split_steps {a : Address} {as : List (Address × NAct T)} {l1 l2 : List (NAct T)} {x : NAct T} (h : stepsOf a as = l1 ++ x :: l2) :
    ∃ as1 as2, as = as1 ++ (a, x) :: as2 ∧ stepsOf a as1 = l1 := by
  unfold stepsOf at h
  obtain ⟨b1, b2, rfl, h1, h2⟩ := List.filterMap_eq_append_iff.1 h
  obtain ⟨c1, y, c2, rfl, h3, h4, h5⟩ := List.filterMap_eq_cons_iff.1 h2
  obtain ⟨b, z⟩ := y
  simp only at h4
  split at h4
  · rename_i hb
    subst hb
    cases h4
    refine ⟨b1 ++ c1, c2, by simp, ?_⟩
    unfold stepsOf
    rw [List.filterMap_append, h1, List.filterMap_eq_nil_iff.2 h3, List.append_nil]
  · cases h4

theorem act_votes {N N' : NetSys T} {a : Address} {x : NAct T} (h : N.act a x = some N') : ∀ y ∈ N.votes, y ∈ N'.votes := by
  unfold NetSys.act at h
  split at h
  · cases h
  · cases h
    exact fun y hy => List.mem_append_left _ hy

theorem run_votes : ∀ (as : List (Address × NAct T)) {N N' : NetSys T}, N.run as = some N' → ∀ y ∈ N.votes, y ∈ N'.votes := by
  intro as
  induction as with
  | nil => intro N N' h; cases h; exact fun _ h => h
  | cons y as ih =>
    obtain ⟨b, x⟩ := y
    intro N N' h
    simp only [NetSys.run] at h
    split at h
    · cases h
    · rename_i N1 h1
      exact fun z hz => ih h z (act_votes h1 z hz)

theorem run_split : ∀ (as1 : List (Address × NAct T)) {as2 : List (Address × NAct T)} {N N' : NetSys T}, N.run (as1 ++ as2) = some N' →
    ∃ N1, N.run as1 = some N1 ∧ N1.run as2 = some N' := by
  intro as1
  induction as1 with
  | nil => intro as2 N N' h; exact ⟨N, rfl, h⟩
  | cons y as ih =>
    obtain ⟨b, x⟩ := y
    intro as2 N N' h
    simp only [NetSys.run, List.cons_append] at h ⊢
    split at h
    · cases h
    · rename_i N1 h1
      exact ih h

theorem alongNet_split {ok : NetSys T → Address → NAct T → Prop} : ∀ (as1 : List (Address × NAct T)) {as2 : List (Address × NAct T)}
    {N N1 : NetSys T} {a : Address} {x : NAct T}, AlongNet ok N (as1 ++ (a, x) :: as2) → N.run as1 = some N1 → ok N1 a x := by
  intro as1
  induction as1 with
  | nil => intro as2 N N1 a x h hr; cases hr; exact h.1
  | cons y as ih =>
    obtain ⟨b, z⟩ := y
    intro as2 N N1 a x h hr
    simp only [NetSys.run] at hr
    split at hr
    · cases hr
    · rename_i N2 h2
      exact ih (h.2 N2 h2) hr

theorem alongNet_take {ok : NetSys T → Address → NAct T → Prop} : ∀ (as1 : List (Address × NAct T)) {as2 : List (Address × NAct T)}
    {N : NetSys T}, AlongNet ok N (as1 ++ as2) → AlongNet ok N as1 := by
  intro as1
  induction as1 with
  | nil => intro as2 N _; trivial
  | cons y as ih => intro as2 N h; exact ⟨h.1, fun N' hN => ih (h.2 N' hN)⟩

/-- The correct validators that the bitmap of a verified certificate names. -/
theorem verified_named {lists : Nat → List Node} {correct : Address → Bool} {votes : List (Address × Vote)} {c : Crypto} {qc : AggregatedVote}
    (hl : GoodLists lists) (hu : Unforgeable correct votes c) (hr : VoteR qc.toVote)
    (hv : verifyQc c qc (Authority.update (lists qc.height)) = true) :
    ∀ v ∈ lists qc.height, selected (lists qc.height) qc.signature.addressBitmap v.address = true → correct v.address = true →
      (v.address, qc.toVote) ∈ votes := by
  unfold verifyQc qcVoters at hv
  rw [isAboveThreshold_eq _ (hl _).1 (hl _).2, getVoters_eq _ (hl _).1] at hv
  have hv : c.verifyAgg qc.signature.signature (c.hash (encVote qc.toVote))
    (((sortNodes (lists qc.height)).filter fun n => selected (lists qc.height) qc.signature.addressBitmap n.address).map Node.address) = true := hv
  intro n hn hsel hc
  exact hu.aggregated _ _ _ hr hv n.address (List.mem_map.2 ⟨n, List.mem_filter.2 ⟨(sortNodes_perm _).mem_iff.2 hn, hsel⟩, rfl⟩) hc

/-- A certificate that was verified and is above the threshold. -/
theorem verified_cert {lists : Nat → List Node} {correct : Address → Bool} {votes : List (Address × Vote)} {c : Crypto} {qc : AggregatedVote}
    (hl : GoodLists lists) (hu : Unforgeable correct votes c) (hs : Strong lists qc)
    (hv : verifyQc c qc (Authority.update (lists qc.height)) = true) :
    Certified lists correct votes qc.voteType qc.height qc.round qc.blockHash := by
  have hall := verified_named hl hu hs.1 hv
  have hq := hs.2
  unfold Certified
  unfold Quorum at hq ⊢
  have := weight_mono (lists qc.height) (selected (lists qc.height) qc.signature.addressBitmap)
    (fun a => !correct a || decide ((a, (⟨qc.height, qc.round, qc.voteType, qc.blockHash⟩ : Vote)) ∈ votes)) (by
      intro n hn hsel
      simp only [Bool.or_eq_true, Bool.not_eq_true', decide_eq_true_eq]
      cases hc : correct n.address with
      | false => exact .inl rfl
      | true =>
        exact .inr (hall n hn hsel hc))
  omega

/-- What the node takes up was verified: the claims of the message, given unforgeable signatures. -/
theorem checked_genuine {lists : Nat → List Node} {correct : Address → Bool} (hl : GoodLists lists) {as : List (Address × NAct T)} {N : NetSys T}
    (hr : NetSys.new.run as = some N) (gs : GenuineSchedule lists correct as)
    (uf : AlongNet (fun N a x => correct a = true → Unforged correct N x) NetSys.new as)
    {a : Address} (ha : correct a = true) (hd : (N.nodes a).down = false) (hp : (N.nodes a).st.consensusPower = true)
    {m : OverlordMsg T} {q : List (OverlordMsg T)} (hq : (N.nodes a).verifiedQ = m :: q) (hs : m.isRichStatus = false)
    (hh : m.getHeight? = some (N.nodes a).st.height) (he : ¬ ArrivedEarly a (stepsOf a as) m) :
    ∃ c, Unforgeable correct N.votes c ∧ verifyTask c m (Authority.update (lists (N.nodes a).st.height)) = true := by
  have hg := netGen_run hl as _ N (netGen_new lists correct) gs hr
  have hauth := ((hg.gen a ha).up hd).st.1.auth hp
  have hrun := net_steps a as _ N hr
  have hal : Along AnswersOk a (NodeSys.new a) (stepsOf a as) := by
    refine net_along (ok := AnswersOk) a as NetSys.new N hr ?_
    refine alongNet_mono (fun N b x h hb => ?_) as _ gs
    subst hb; exact (h ha).answers
  rcases C21_processed_is_verified_partial a (stepsOf a as) (N.nodes a) hrun hal hd m q hq hs hh with h | h
  · obtain ⟨l1, c, i, l2, n, e1, _, e2, e3, e4⟩ := h
    obtain ⟨as1, as2, rfl, e5⟩ := split_steps e1
    obtain ⟨N1, r1, r2⟩ := run_split as1 hr
    have hu := alongNet_split as1 uf r1 ha
    refine ⟨c, ⟨fun s v b h1 h2 h3 => run_votes _ r2 _ (hu.single s v b h1 h2 h3), fun s v l h1 h2 b h3 h4 =>
      run_votes _ r2 _ (hu.aggregated s v l h1 h2 b h3 h4)⟩, ?_⟩
    rw [← hauth]; exact e4
  · exact absurd h he

theorem genuine_of_checked {lists : Nat → List Node} {correct : Address → Bool} (hl : GoodLists lists) {votes : List (Address × Vote)} {c : Crypto}
    (hu : Unforgeable correct votes c) {m : OverlordMsg T} {k : Nat} (hk : m.getHeight? = some k)
    (hv : verifyTask c m (Authority.update (lists k)) = true) (hs : m.isRichStatus = false) (hun : Unchecked lists correct votes m) :
    Genuine lists correct votes m := by
  cases m with
  | signedVote sv => exact fun hc => hu.single _ _ _ hun hc hv
  | aggregatedVote qc =>
    simp only [OverlordMsg.getHeight?, Option.some.injEq] at hk
    subst hk
    exact verified_cert hl hu hun hv
  | signedProposal sp =>
    simp only [OverlordMsg.getHeight?, Option.some.injEq] at hk
    intro l hlk
    obtain ⟨h1, h2, h3, h4⟩ := hun l hlk
    unfold verifyTask at hv
    simp only at hv
    split at hv
    · cases hv
    · rw [hlk] at hv
      split at hv
      · simp only at hv
        rw [← hk, ← h3] at hv
        have := verified_cert hl hu h1 hv
        rw [h2, h3, h4] at this
        exact ⟨_, this⟩
      · cases hv
  | signedChoke sc =>
    intro qc h1 h2 h3
    obtain ⟨h4, c', h5, h6⟩ := hun qc h1 h2 h3
    exact verified_cert hl h5 h4 h6
  | richStatus st => cases hs
  | stop => trivial

theorem SignedStep.gen {lists : Nat → List Node} {correct : Address → Bool} {N : NetSys T} {a : Address} {x : NAct T}
    (h : SignedStep lists correct N a x) (hg : GenuineInput lists correct N.votes (N.nodes a) x) : NetStep lists correct N a x :=
  ⟨h.inSync, h.rounds, h.start, h.answers, h.saves, h.given, hg⟩

/-- Steps that are possible happen at nodes that are up. -/
theorem arm_up {addr : Address} {n n' : NodeSys T} {b : Arm T} {e : Env T} {cut : Option Nat} (h : n.act addr (.arm b e cut) = some n') :
    n.down = false := by
  cases hd : n.down with
  | false => rfl
  | true => simp [NodeSys.act, hd] at h

theorem noneEarly_take {correct : Address → Bool} {as as' : List (Address × NAct T)} (h : NoneEarly correct (as ++ as')) : NoneEarly correct as := by
  intro as1 a e cut as2 N m q h1 h2 h3 h4 h5 h6
  exact h as1 a e cut (as2 ++ as') N m q (by rw [h1]; simp) h2 h3 h4 h5 h6

/-- With unforgeable signatures, schedules are fair. -/
theorem signed_fair {lists : Nat → List Node} {correct : Address → Bool} (hl : GoodLists lists) : ∀ (n : Nat) (as : List (Address × NAct T)) (N : NetSys T),
    as.length = n → NetSys.new.run as = some N → SignedSchedule lists correct as → NoneEarly correct as → FairSchedule lists correct as := by
  intro n
  induction n with
  | zero =>
    intro as N hn _ _ _
    rw [List.length_eq_zero_iff] at hn
    subst hn; trivial
  | succ n ih =>
    intro as N hn hr hs he
    rcases List.eq_nil_or_concat as with rfl | ⟨as1, ⟨a, x⟩, rfl⟩
    · cases hn
    · rw [List.concat_eq_append] at *
      obtain ⟨N1, r1, r2⟩ := run_split as1 hr
      have hf := ih as1 N1 (by simpa using hn) r1 (alongNet_take as1 hs) (noneEarly_take he)
      refine Pace.alongNet_snoc hf r1 fun hc => ?_
      have hst := alongNet_split as1 hs r1 hc
      refine SignedStep.gen hst ?_
      have gs : GenuineSchedule lists correct as1 :=
        alongNet_mono (fun N a x h hc => ⟨(h hc).start, (h hc).answers, (h hc).saves, (h hc).given, (h hc).genuine⟩) as1 _ hf
      have uf : AlongNet (fun N a x => correct a = true → Unforged correct N x) NetSys.new as1 :=
        alongNet_mono (fun N a x h hc => (h hc).unforged) as1 _ (alongNet_take as1 hs)
      have up : ∀ b e cut, x = .arm b e cut → (N1.nodes a).down = false := by
        intro b e cut hx
        subst hx
        simp only [NetSys.run] at r2
        split at r2
        · cases r2
        · rename_i N2 h2
          unfold NetSys.act at h2
          split at h2
          · cases h2
          · rename_i n' h3
            exact arm_up h3
      cases x with
      | arm b e cut =>
        cases b with
        | verified =>
          intro m q hq hm
          have hun := hst.unchecked m q hq hm
          cases hs' : m.isRichStatus with
          | true =>
            cases m <;> simp [OverlordMsg.isRichStatus] at hs'
            exact hun
          | false =>
            rcases hm with hm | ⟨hp, hm⟩
            · rw [hs'] at hm; cases hm
            · obtain ⟨c, h1, h2⟩ := checked_genuine hl r1 gs uf hc (up _ _ _ rfl) hp hq hs' hm (he as1 a e cut [] N1 m q rfl hc r1 hq hs' hm)
              exact genuine_of_checked hl h1 hm h2 hs' hun
        | _ => trivial
      | _ => trivial

/-! An ideal signature scheme. -/

/-- The bytes are those of a vote that `a` has released, or `a` is faulty. -/
def idealSig (correct : Address → Bool) (votes : List (Address × Vote)) (h : Bytes) (a : Address) : Bool :=
  !correct a || decide (h.length < U64) && match decVote h with
    | .ok v => decide ((a, v) ∈ votes)
    | .error _ => false

/-- Signatures are empty; the scheme knows who has released which votes. -/
def ideal (correct : Address → Bool) (votes : List (Address × Vote)) : Crypto :=
  { hash := id, sign := fun _ => some [], aggregate := fun _ _ => some [], verifySig := fun _ h a => idealSig correct votes h a,
    verifyAgg := fun _ h l => l.all fun a => idealSig correct votes h a }

theorem idealSig_sound {correct : Address → Bool} {votes : List (Address × Vote)} {v : Vote} {a : Address} (hv : VoteR v) (hc : correct a = true)
    (h : idealSig correct votes (encVote v) a = true) : (a, v) ∈ votes := by
  simp only [idealSig, hc, Bool.not_true, Bool.false_or, Bool.and_eq_true, decide_eq_true_eq] at h
  rw [(rt_vote v hv h.1).1] at h
  exact of_decide_eq_true h.2

theorem ideal_unforgeable (correct : Address → Bool) (votes : List (Address × Vote)) : Unforgeable correct votes (ideal correct votes) :=
  ⟨fun s v a hv hc h => idealSig_sound hv hc h, fun s v l hv h a ha hc => idealSig_sound hv hc (List.all_eq_true.1 h a ha)⟩

/-- The schedule with ideal signatures. -/
def sealed (correct : Address → Bool) : NetSys T → List (Address × NAct T) → List (Address × NAct T)
  | _, [] => []
  | N, (a, x) :: as =>
    let y : NAct T := match x with
      | .verifyDone _ i => .verifyDone (ideal correct N.votes) i
      | x => x
    (a, y) :: match N.act a y with
      | some N' => sealed correct N' as
      | none => []

theorem sealed_unforged (correct : Address → Bool) : ∀ (as : List (Address × NAct T)) (N : NetSys T),
    AlongNet (fun N a x => correct a = true → Unforged correct N x) N (sealed correct N as) := by
  intro as
  induction as with
  | nil => intro N; trivial
  | cons y as ih =>
    obtain ⟨a, x⟩ := y
    intro N
    refine ⟨fun _ => ?_, fun N' hN => ?_⟩
    · cases x <;> first | exact ideal_unforgeable _ _ | trivial
    · rw [hN]; exact ih N'

/-- No message of a later height arrives. -/
def InTime (N : NetSys T) (a : Address) : NAct T → Prop
  | .arm (.raw m) _ _ => m.isRichStatus = false → ∀ k, m.getHeight? = some k → k ≤ (N.nodes a).st.height
  | _ => True

theorem inTime_early {correct : Address → Bool} {as : List (Address × NAct T)} {N : NetSys T} {a : Address} {m : OverlordMsg T}
    (h : AlongNet (fun N a x => correct a = true → InTime N a x) NetSys.new as) (hr : NetSys.new.run as = some N) (hc : correct a = true)
    (hs : m.isRichStatus = false) : ¬ ArrivedEarly a (stepsOf a as) m := by
  rintro ⟨l1, e', cut', l2, n, k, h1, _, h2, h3, h4⟩
  obtain ⟨b1, b2, rfl, h5⟩ := split_steps h1
  obtain ⟨N1, r1, r2⟩ := run_split b1 hr
  have := alongNet_split b1 h r1 hc hs k h3
  have hn := net_steps a b1 _ N1 r1
  rw [h5] at hn
  have : (NodeSys.new a : NodeSys T).run a l1 = some (N1.nodes a) := hn
  rw [h2] at this
  cases this
  omega

theorem inTime_noneEarly {correct : Address → Bool} {as : List (Address × NAct T)} (h : AlongNet (fun N a x => correct a = true → InTime N a x) NetSys.new as) :
    NoneEarly correct as := by
  rintro as1 a e cut as2 N m q rfl hc hr hq hs hh
  exact inTime_early (alongNet_take as1 h) hr hc hs

end Sign
end Overlord
