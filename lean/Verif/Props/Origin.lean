import Verif.Proofs.OriginNet
import Verif.Proofs.GoodDemo
import Verif.Props.Net2

/-!
# C59: where committed blocks come from
-/

set_option linter.unusedVariables false
set_option linter.unusedSimpArgs false
set_option linter.unusedSectionVars false

namespace Overlord
open M Spec

variable {T : Type} [ContentCodec T] [DecidableEq T]

namespace Origin

theorem alongNet_of {ok : NetSys T → Address → NAct T → Prop} : ∀ (as : List (Address × NAct T)) (N : NetSys T),
    (∀ as1 a x as2 N1, as = as1 ++ (a, x) :: as2 → N.run as1 = some N1 → ok N1 a x) → AlongNet ok N as := by
  intro as
  induction as with
  | nil => intro N _; trivial
  | cons y as ih =>
    obtain ⟨a, x⟩ := y
    intro N h
    refine ⟨h [] a x as N rfl rfl, fun N' hN => ih N' fun as1 b z as2 N1 h1 h2 => ?_⟩
    refine h ((a, x) :: as1) b z as2 N1 (by rw [h1]; rfl) ?_
    simp only [NetSys.run, hN]; exact h2

end Origin

/-- **C59.** Every block that a correct node commits at a height was made for this height by the application of a correct node, asked for it as
the leader of one of its rounds; or it came in a proposal for this height by a faulty node that leads the proposal's round. Nothing is assumed
of the number of faulty nodes, nor of votes, certificates, locks and chokes: no certificate, however forged, makes a correct node commit a
block that no leader has proposed. -/
theorem C59_committed_block_origin (mode : LeaderMode) (lists : Nat → List Node) (correct : Address → Bool) (hl : GoodLists lists)
    (as : List (Address × NAct T)) (N : NetSys T) (hr : NetSys.new.run as = some N) (ok : OriginSchedule mode lists correct as)
    (a : Address) (ha : correct a = true) (k : Nat) (c : Commit T) (r : Option Status) (h : .commitCall k c r ∈ (N.nodes a).log) :
    MadeByCorrect mode lists correct N k c.proof.blockHash c.content ∨ ProposedByFaulty mode lists correct as k c.proof.blockHash c.content :=
  (Origin.orgNet_run hl _ as N rfl hr ok).log a ha _ h

/-- **C59.** The same for the blocks that correct nodes propose. -/
theorem C59_proposed_block_origin (mode : LeaderMode) (lists : Nat → List Node) (correct : Address → Bool) (hl : GoodLists lists)
    (as : List (Address × NAct T)) (N : NetSys T) (hr : NetSys.new.run as = some N) (ok : OriginSchedule mode lists correct as)
    (a : Address) (ha : correct a = true) (sp : SignedProposal T) (h : .broadcast (.signedProposal sp) ∈ (N.nodes a).log) :
    MadeByCorrect mode lists correct N sp.proposal.height sp.proposal.blockHash sp.proposal.content ∨
      ProposedByFaulty mode lists correct as sp.proposal.height sp.proposal.blockHash sp.proposal.content :=
  (Origin.orgNet_run hl _ as N rfl hr ok).log a ha _ h

/-- **C59.** The same for the locked blocks in the records that correct nodes keep. -/
theorem C59_saved_block_origin (mode : LeaderMode) (lists : Nat → List Node) (correct : Address → Bool) (hl : GoodLists lists)
    (as : List (Address × NAct T)) (N : NetSys T) (hr : NetSys.new.run as = some N) (ok : OriginSchedule mode lists correct as)
    (a : Address) (ha : correct a = true) (w : WalInfo T) (l : WalLock T) (h : .saveWal w true ∈ (N.nodes a).log) (hw : w.lock = some l) :
    MadeByCorrect mode lists correct N w.height l.lockVotes.blockHash l.content ∨
      ProposedByFaulty mode lists correct as w.height l.lockVotes.blockHash l.content :=
  (Origin.orgNet_run hl _ as N rfl hr ok).log a ha _ h l hw

/-- **C59.** The application of a correct node is asked for a block only when the node leads a round of that height. -/
theorem C59_asked_as_leader (mode : LeaderMode) (lists : Nat → List Node) (correct : Address → Bool) (hl : GoodLists lists)
    (as : List (Address × NAct T)) (N : NetSys T) (hr : NetSys.new.run as = some N) (ok : OriginSchedule mode lists correct as)
    (a : Address) (ha : correct a = true) (k : Nat) (res : Option (T × Hash)) (h : .getBlock k res ∈ (N.nodes a).log) :
    ∃ r, LeaderOf mode lists k r a :=
  (Origin.orgNet_run hl _ as N rfl hr ok).asks a ha k res h

/-- **C59.** If all nodes that can lead a round of a height are correct, what is committed at that height was made by one of their
applications for it - whatever other nodes do. -/
theorem C59_correct_leaders (mode : LeaderMode) (lists : Nat → List Node) (correct : Address → Bool) (hl : GoodLists lists)
    (as : List (Address × NAct T)) (N : NetSys T) (hr : NetSys.new.run as = some N) (ok : OriginSchedule mode lists correct as)
    (a : Address) (ha : correct a = true) (k : Nat) (c : Commit T) (r : Option Status) (h : .commitCall k c r ∈ (N.nodes a).log)
    (lead : ∀ r p, LeaderOf mode lists k r p → correct p = true) :
    MadeByCorrect mode lists correct N k c.proof.blockHash c.content := by
  rcases C59_committed_block_origin mode lists correct hl as N hr ok a ha k c r h with g | ⟨sp, -, -, -, h1, h2, -⟩
  · exact g
  · rw [lead _ _ h1] at h2; cases h2

/-- The conditions of C59 follow from signatures that can not be forged, if no correct node takes up a message unverified (C21). -/
theorem C59_signed_schedule (mode : LeaderMode) (lists : Nat → List Node) (correct : Address → Bool) (as : List (Address × NAct T)) (N : NetSys T)
    (hr : NetSys.new.run as = some N) (ok : AlongNet (fun N a x => correct a = true → SignedOriginStep mode lists correct N a x) NetSys.new as)
    (inTime : NoneEarly correct as) : OriginSchedule mode lists correct as := by
  refine Origin.alongNet_of as _ fun as1 a x as2 N1 h1 h2 ha => ?_
  subst h1
  have o := Sign.alongNet_split as1 ok h2 ha
  refine ⟨o.start, o.answers, o.saves, o.given, o.status, o.mode, ?_⟩
  unfold GenuineProposal
  split
  · rename_i e cut
    intro sp q hq hp hh hc
    obtain ⟨N1', r1, r2⟩ := Sign.run_split as1 hr
    rw [h2] at r1; cases r1
    have hd : (N1.nodes a).down = false := by
      simp only [NetSys.run] at r2
      split at r2
      · cases r2
      · rename_i N2 hN2
        unfold NetSys.act at hN2
        split at hN2
        · cases hN2
        · rename_i n hn; exact Sign.arm_up hn
    have hm : (OverlordMsg.signedProposal sp).getHeight? = some (N1.nodes a).st.height := by rw [← hh]; rfl
    have hal : Along AnswersOk a (NodeSys.new a) (stepsOf a as1) := by
      refine net_along (ok := AnswersOk) a as1 NetSys.new N1 h2 ?_
      refine alongNet_mono (fun N b x h hb => ?_) as1 _ (Sign.alongNet_take as1 ok)
      subst hb; exact (h ha).answers
    rcases C21_processed_is_verified_partial a (stepsOf a as1) (N1.nodes a) (net_steps a as1 _ N1 h2) hal hd _ q hq rfl hm with g | g
    · obtain ⟨l1, cr, i, l2, n, e1, _, e2, e3, e4⟩ := g
      obtain ⟨bs1, bs2, rfl, e5⟩ := Sign.split_steps e1
      obtain ⟨N0, s1, s2⟩ := Sign.run_split bs1 h2
      have hu := Sign.alongNet_split bs1 (Sign.alongNet_take _ ok) s1 ha
      unfold verifyTask at e4
      simp only at e4
      split at e4
      · cases e4
      · rename_i b hb
        split at e4
        · rename_i hs
          obtain ⟨sp', k1, k2⟩ := hu.unforged _ _ b (o.inRange sp q hq) hb hc hs
          refine ⟨sp', k1, ?_⟩
          obtain ⟨l, hl⟩ := Origin.run_logs _ s2 sp.proposal.proposer
          rw [hl]; exact List.mem_append_left _ k2
        · cases e4
    · exact absurd g (inTime _ a e cut as2 N1 _ q rfl ha h2 hq rfl hm)
  · trivial

/-- **C59** from unforgeable signatures on proposals. -/
theorem C59_origin_from_signatures (mode : LeaderMode) (lists : Nat → List Node) (correct : Address → Bool) (hl : GoodLists lists)
    (as : List (Address × NAct T)) (N : NetSys T) (hr : NetSys.new.run as = some N)
    (ok : AlongNet (fun N a x => correct a = true → SignedOriginStep mode lists correct N a x) NetSys.new as) (inTime : NoneEarly correct as)
    (a : Address) (ha : correct a = true) (k : Nat) (c : Commit T) (r : Option Status) (h : .commitCall k c r ∈ (N.nodes a).log) :
    MadeByCorrect mode lists correct N k c.proof.blockHash c.content ∨ ProposedByFaulty mode lists correct as k c.proof.blockHash c.content :=
  C59_committed_block_origin mode lists correct hl as N hr (C59_signed_schedule mode lists correct as N hr ok inTime) a ha k c r h

/-! ### Examples -/

namespace OriginDemo
open NetDemo GoodDemo

/-- The conditions that depend on the state of the network, computed. -/
def originB (good : Address → Bool) (N : NetSys C) (a : Address) (x : NAct C) : Bool :=
  !good a || startOkB a (N.nodes a) x && match x with
    | .arm .verified _ _ => match (N.nodes a).verifiedQ with
      | .richStatus st :: _ => decide (st.authorityList = lists st.height)
      | .signedProposal sp :: _ => !good sp.proposal.proposer || (N.nodes sp.proposal.proposer).log.any fun y => match y with
        | .broadcast (.signedProposal sp') => decide (sp'.proposal = sp.proposal)
        | _ => false
      | _ => true
    | _ => true

/-- The conditions on the application. -/
def EnvOk (a : Address) : NAct C → Prop
  | .arm _ e _ => CommitsAnswered e ∧ (∀ b, e.walSave b = true) ∧ (∀ k c st, e.commit k c = some st → st.authorityList = lists st.height) ∧
      e.mode = .rotation
  | .start p e _ => CommitsAnswered e ∧ (∀ b, e.walSave b = true) ∧ (∀ k c st, e.commit k c = some st → st.authorityList = lists st.height) ∧
      e.mode = .rotation ∧ p.list = nodes
  | _ => True

theorem originB_sound {good : Address → Bool} {as : List (Address × NAct C)} (he : ∀ y ∈ as, EnvOk y.1 y.2)
    (h : alongNetB (originB good) NetSys.new as = true) : OriginSchedule .rotation lists good as := by
  refine alongNetB_sound _ _ (fun N y hy hb hc => ?_) h
  obtain ⟨a, x⟩ := y
  have he := he _ hy
  simp only [originB, hc, Bool.not_true, Bool.false_or, Bool.and_eq_true] at hb
  obtain ⟨h1, h2⟩ := hb
  refine ⟨startOkB_sound h1, ?_, ?_, ?_, ?_, ?_, ?_⟩
  · cases x <;> first | exact he.1 | trivial
  · cases x <;> first | exact he.2.1 | trivial
  · cases x <;> first | exact he.2.2.1 | exact ⟨he.2.2.1, fun _ => he.2.2.2.2⟩ | trivial
  · cases x with
    | arm b e cut => cases b with
      | verified =>
        intro st q hq
        simp only [hq] at h2
        exact of_decide_eq_true h2
      | _ => trivial
    | _ => trivial
  · cases x <;> first | exact he.2.2.2 | exact he.2.2.2.1 | trivial
  · cases x with
    | arm b e cut => cases b with
      | verified =>
        intro sp q hq hp hh hg
        simp only [hq, hg, Bool.not_true, Bool.false_or, List.any_eq_true] at h2
        obtain ⟨y, hy, h3⟩ := h2
        split at h3
        · rename_i sp'
          exact ⟨sp', of_decide_eq_true h3, hy⟩
        · cases h3
      | _ => trivial
    | _ => trivial

theorem sched_env (l : List (UInt8 × List D)) : ∀ y ∈ sched l, EnvOk y.1 y.2 := by
  intro y hy
  obtain ⟨a, d, rfl⟩ := mem_sched hy
  have hl : ∀ w k c st, (envN a w).commit k c = some st → st.authorityList = lists st.height := by
    intro w k c st hst
    simp only [envN, Option.some.injEq] at hst
    subst hst; rfl
  cases d <;> first | exact ⟨envN_answers _ _, fun _ => rfl, hl _, rfl⟩ | exact ⟨envN_answers _ _, fun _ => rfl, hl _, rfl, rfl⟩ | trivial

theorem schedG_env (l : List (UInt8 × List D)) : ∀ y ∈ schedG l, EnvOk y.1 y.2 := by
  intro y hy
  simp only [schedG, List.mem_flatMap, List.mem_map] at hy
  obtain ⟨z, _, d, _, rfl⟩ := hy
  have hl : ∀ k c st, (envG z.1).commit k c = some st → st.authorityList = lists st.height := by
    intro k c st hst
    simp only [envG, envN, Option.some.injEq] at hst
    subst hst; rfl
  have ha : CommitsAnswered (envG z.1) := envN_answers z.1 (some none)
  cases d <;> first | exact ⟨ha, fun _ => rfl, hl, rfl⟩ | exact ⟨ha, fun _ => rfl, hl, rfl, rfl⟩ | trivial

/-- Validators 1, 2 and 3 are correct. -/
def good (a : Address) : Bool := [[1], [2], [3]].contains a

/-- C59: a block of a correct leader is committed by others. -/
example : ∃ N c r, NetSys.new.run (schedG (before ++ GoodDemo.round)) = some N ∧ OriginSchedule .rotation lists good (schedG (before ++ GoodDemo.round)) ∧
    good [3] = true ∧ .commitCall 10 c r ∈ (N.nodes [3]).log ∧ c.proof.blockHash = [5] ∧
    MadeByCorrect .rotation lists good N 10 [5] c.content := by
  have hd : (match NetSys.new.run (schedG (before ++ GoodDemo.round)) with
      | some N => decide ((commitsAt (N.nodes [3]).log).map (fun x => (x.1, x.2.proof.blockHash, x.2.content)) = [(10, [5], [5, 5])]) &&
          decide (Effect.getBlock 10 (some ([5, 5], [5])) ∈ (N.nodes [1]).log)
      | none => false) = true := by decide +kernel
  split at hd
  · rename_i N hN
    rw [Bool.and_eq_true] at hd
    have h1 := of_decide_eq_true hd.1
    have hm : (10, [5], [5, 5]) ∈ (commitsAt (N.nodes [3]).log).map (fun x => (x.1, x.2.proof.blockHash, x.2.content)) := by rw [h1]; simp
    obtain ⟨⟨k, c⟩, hc, he⟩ := List.mem_map.1 hm
    simp only [Prod.mk.injEq] at he
    obtain ⟨rfl, e2, e3⟩ := he
    obtain ⟨y, hy, he⟩ := List.mem_filterMap.1 hc
    cases y <;> simp at he
    obtain ⟨rfl, rfl⟩ := he
    refine ⟨N, _, _, hN, originB_sound (schedG_env _) (by decide +kernel), by decide, hy, e2, ?_⟩
    rw [e3]
    exact ⟨[1], 0, by decide, by unfold LeaderOf; decide +kernel, of_decide_eq_true hd.2⟩
  · cases hd

/-- C59: the block of a faulty leader (validator 3) is committed by correct nodes (1 and 2); no correct node was ever asked for a block. -/
example : ∃ N c r, NetSys.new.run (sched agreeing) = some N ∧ OriginSchedule .rotation lists correct (sched agreeing) ∧
    correct [1] = true ∧ .commitCall 9 c r ∈ (N.nodes [1]).log ∧ ¬ MadeByCorrect .rotation lists correct N 9 c.proof.blockHash c.content := by
  have hd : (match NetSys.new.run (sched agreeing) with
      | some N => decide (committed (N.nodes [1]) = [(9, [5])]) &&
          ([[1], [2]].all fun a => (N.nodes a).log.all fun y => match y with
            | .getBlock _ _ => false
            | _ => true)
      | none => false) = true := by decide +kernel
  split at hd
  · rename_i N hN
    rw [Bool.and_eq_true] at hd
    have h1 := of_decide_eq_true hd.1
    have hm : (9, [5]) ∈ committed (N.nodes [1]) := by rw [h1]; simp
    obtain ⟨⟨k, c⟩, hc, he⟩ := List.mem_map.1 hm
    simp only [Prod.mk.injEq] at he
    obtain ⟨rfl, e2⟩ := he
    obtain ⟨y, hy, he⟩ := List.mem_filterMap.1 hc
    cases y <;> simp at he
    obtain ⟨rfl, rfl⟩ := he
    refine ⟨N, _, _, hN, originB_sound (sched_env _) (by decide +kernel), by decide, hy, ?_⟩
    rintro ⟨a, r, h2, -, h3⟩
    have h4 : a ∈ ([[1], [2]] : List Address) := by
      simp only [correct, Bool.or_eq_true, beq_iff_eq] at h2
      rcases h2 with rfl | rfl <;> simp
    have h5 := List.all_eq_true.1 (List.all_eq_true.1 hd.2 a h4) _ h3
    cases h5
  · cases hd

/-! Unforgeable signatures -/

/-- The ideal scheme: a signature in the name of a correct node is accepted for what is no proposal, and for a proposal the node has broadcast. -/
def idealP (good : Address → Bool) (N : NetSys C) : Crypto :=
  { hash := id, sign := fun _ => some [], aggregate := fun _ _ => some [], verifyAgg := fun _ _ _ => true,
    verifySig := fun _ h a => !good a || decide (h.length < 2 ^ 64) && match (decProposal h : Except DErr (Proposal C)) with
      | .ok p => (N.nodes a).log.any fun y => match y with
        | .broadcast (.signedProposal sp) => decide (sp.proposal = p)
        | _ => false
      | .error _ => true }

theorem faithfulC : Faithful C := fun x b h => by cases h; rfl

theorem idealP_unforged (good : Address → Bool) (N : NetSys C) (i : Nat) : UnforgedProposals good N (.verifyDone (idealP good N) i) := by
  intro s p b hr he hg hv
  simp only [idealP, hg, Bool.not_true, Bool.false_or, Bool.and_eq_true, decide_eq_true_eq, id] at hv
  obtain ⟨hb, hv⟩ := hv
  rw [(rt_proposal faithfulC p b hr he hb).1] at hv
  simp only [List.any_eq_true] at hv
  obtain ⟨y, hy, h3⟩ := hv
  split at h3
  · rename_i sp
    exact ⟨sp, of_decide_eq_true h3, hy⟩
  · cases h3

/-- The schedule with ideal signatures. -/
def sealedP (good : Address → Bool) : NetSys C → List (Address × NAct C) → List (Address × NAct C)
  | _, [] => []
  | N, (a, x) :: as =>
    let y : NAct C := match x with
      | .verifyDone _ i => .verifyDone (idealP good N) i
      | x => x
    (a, y) :: match N.act a y with
      | some N' => sealedP good N' as
      | none => []

theorem sealedP_unforged (good : Address → Bool) : ∀ (as : List (Address × NAct C)) (N : NetSys C),
    AlongNet (fun N a x => good a = true → UnforgedProposals good N x) N (sealedP good N as) := by
  intro as
  induction as with
  | nil => intro N; trivial
  | cons y as ih =>
    obtain ⟨a, x⟩ := y
    intro N
    refine ⟨fun _ => ?_, fun N' hN => ?_⟩
    · cases x <;> first | exact idealP_unforged _ _ _ | trivial
    · rw [hN]; exact ih N'

theorem mem_sealedP {good : Address → Bool} : ∀ (as : List (Address × NAct C)) (N : NetSys C) {y : Address × NAct C},
    y ∈ sealedP good N as → y ∈ as ∨ ∃ c i, y.2 = .verifyDone c i := by
  intro as
  induction as with
  | nil => intro N y h; cases h
  | cons z as ih =>
    obtain ⟨a, x⟩ := z
    intro N y h
    unfold sealedP at h
    rcases List.mem_cons.1 h with rfl | h
    · cases x <;> first | exact .inl (List.mem_cons_self ..) | exact .inr ⟨_, _, rfl⟩
    · split at h
      · exact (ih _ h).imp_left (List.mem_cons_of_mem _)
      · cases h

/-- What else is asked, computed. -/
def restB (good : Address → Bool) (N : NetSys C) (a : Address) (x : NAct C) : Bool :=
  !good a || startOkB a (N.nodes a) x && match x with
    | .arm .verified _ _ => match (N.nodes a).verifiedQ with
      | .richStatus st :: _ => decide (st.authorityList = lists st.height)
      | .signedProposal sp :: _ => decide (sp.proposal.height < 2 ^ 64 ∧ sp.proposal.round < 2 ^ 64 ∧ sp.proposal.lock = none)
      | _ => true
    | .arm (.raw m) _ _ => m.isRichStatus || match m.getHeight? with
      | some k => decide (k ≤ (N.nodes a).st.height)
      | none => true
    | _ => true

theorem restB_inTime {good : Address → Bool} {N : NetSys C} {a : Address} {x : NAct C} (h : restB good N a x = true) (hc : good a = true) :
    Sign.InTime N a x := by
  simp only [restB, hc, Bool.not_true, Bool.false_or, Bool.and_eq_true] at h
  have h2 := h.2
  cases x with
  | arm b e cut => cases b with
    | raw m =>
      intro hs k hk
      simp only [hs, hk, Bool.false_or, decide_eq_true_eq] at h2
      exact h2
    | _ => trivial
  | _ => trivial

theorem restB_sound {good : Address → Bool} {as : List (Address × NAct C)} (he : ∀ y ∈ as, EnvOk y.1 y.2)
    (h : alongNetB (restB good) NetSys.new (sealedP good NetSys.new as) = true) :
    AlongNet (fun N a x => good a = true → SignedOriginStep .rotation lists good N a x) NetSys.new (sealedP good NetSys.new as) ∧
      NoneEarly good (sealedP good NetSys.new as) := by
  refine ⟨?_, Sign.inTime_noneEarly (alongNetB_sound _ _ (fun N y hy hb hc => restB_inTime hb hc) h)⟩
  have h1 : AlongNet (fun N a x => good a = true → (StartOk a (N.nodes a) x ∧ AnswersOk (N.nodes a) x ∧ SavesWork (N.nodes a) x ∧
      GivenLists lists a (N.nodes a) x ∧ StatusLists lists (N.nodes a) x ∧ SameMode .rotation x ∧ ProposalInRange (N.nodes a) x))
      NetSys.new (sealedP good NetSys.new as) := by
    refine alongNetB_sound _ _ (fun N y hy hb hc => ?_) h
    obtain ⟨a, x⟩ := y
    have he : EnvOk a x := by
      rcases mem_sealedP _ _ hy with hy | ⟨c, i, hx⟩
      · exact he _ hy
      · simp only at hx; subst hx; trivial
    simp only [restB, hc, Bool.not_true, Bool.false_or, Bool.and_eq_true] at hb
    obtain ⟨h1, h2⟩ := hb
    refine ⟨startOkB_sound h1, ?_, ?_, ?_, ?_, ?_, ?_⟩
    · cases x <;> first | exact he.1 | trivial
    · cases x <;> first | exact he.2.1 | trivial
    · cases x <;> first | exact he.2.2.1 | exact ⟨he.2.2.1, fun _ => he.2.2.2.2⟩ | trivial
    · cases x with
      | arm b e cut => cases b with
        | verified =>
          intro st q hq
          simp only [hq] at h2
          exact of_decide_eq_true h2
        | _ => trivial
      | _ => trivial
    · cases x <;> first | exact he.2.2.2 | exact he.2.2.2.1 | trivial
    · cases x with
      | arm b e cut => cases b with
        | verified =>
          intro sp q hq
          simp only [hq, decide_eq_true_eq] at h2
          exact ⟨h2.1, h2.2.1, fun l hl => by rw [h2.2.2] at hl; cases hl⟩
        | _ => trivial
      | _ => trivial
  refine alongNet_and (fun N a x h1 h2 hc => ?_) _ _ h1 (sealedP_unforged good as NetSys.new)
  obtain ⟨g1, g2, g3, g4, g5, g6, g7⟩ := h1 hc
  exact ⟨g1, g2, g3, g4, g5, g6, h2 hc, g7⟩

/-- C59 from signatures: the round of the first example with the ideal scheme, which refuses all proposals in the name of correct nodes they
have not made. -/
example : ∃ N c r, NetSys.new.run (sealedP good NetSys.new (schedG (before ++ GoodDemo.round))) = some N ∧
    AlongNet (fun N a x => good a = true → SignedOriginStep .rotation lists good N a x) NetSys.new
      (sealedP good NetSys.new (schedG (before ++ GoodDemo.round))) ∧
    NoneEarly good (sealedP good NetSys.new (schedG (before ++ GoodDemo.round))) ∧ good [3] = true ∧ .commitCall 10 c r ∈ (N.nodes [3]).log := by
  have hd : (match NetSys.new.run (sealedP good NetSys.new (schedG (before ++ GoodDemo.round))) with
      | some N => decide ((commitsAt (N.nodes [3]).log).map (fun x => x.1) = [10])
      | none => false) = true := by decide +kernel
  split at hd
  · rename_i N hN
    have h1 := of_decide_eq_true hd
    have hm : 10 ∈ (commitsAt (N.nodes [3]).log).map (fun x => x.1) := by rw [h1]; simp
    obtain ⟨⟨k, c⟩, hc, he⟩ := List.mem_map.1 hm
    simp only at he
    subst he
    obtain ⟨y, hy, he⟩ := List.mem_filterMap.1 hc
    cases y <;> simp at he
    obtain ⟨rfl, rfl⟩ := he
    obtain ⟨h2, h3⟩ := restB_sound (good := good) (schedG_env (before ++ GoodDemo.round)) (by decide +kernel)
    exact ⟨N, _, _, hN, h2, h3, by decide, hy⟩
  · cases hd

end OriginDemo

end Overlord
