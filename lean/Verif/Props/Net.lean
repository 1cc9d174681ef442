import Verif.Proofs.NetDemo

/-!
# Agreement (C43, C44)
-/

set_option linter.unusedVariables false

namespace Overlord
open M Spec

variable {T : Type} [ContentCodec T] [DecidableEq T]

/-- **C44** (partial). With at most a third of the weight at faulty validators, no two correct nodes pass different blocks to
`commit()` for the same height, over whole lives with crashes in the middle of any input and any number of restarts, for every
schedule and everything faulty nodes may send. (`a = b` is allowed: a node does not commit two blocks for one height either.)
Missing: schedules outside `FairSchedule` and `KeepsLocks`. Agreement is false without `KeepsLocks`, and without the
condition in `Genuine` that the weight of certificates has been counted (see below); `InSync` excludes the orders of C31;
`GenuineInput` excludes that messages of the current height are taken up unverified (C21). -/
theorem C44_agreement_partial (lists : Nat → List Node) (correct : Address → Bool) (hl : GoodLists lists) (few : FewFaulty lists correct)
    (as : List (Address × NAct T)) (N : NetSys T) (hr : NetSys.new.run as = some N)
    (fair : FairSchedule lists correct as) (keeps : KeepsLocks lists correct as)
    (a b : Address) (ha : correct a = true) (hb : correct b = true) (k : Nat) (c c' : Commit T) (r r' : Option Status)
    (h : .commitCall k c r ∈ (N.nodes a).log) (h' : .commitCall k c' r' ∈ (N.nodes b).log) :
    c.proof.blockHash = c'.proof.blockHash := by
  have inv := netInv_run hl few as _ N (netInv_new lists correct) fair keeps hr
  have key : ∀ a, correct a = true → ∀ c r, .commitCall k c r ∈ (N.nodes a).log →
      Certified lists correct N.votes .precommit k c.proof.round c.proof.blockHash ∧ c.proof.blockHash ≠ [] := by
    intro a ha c r h
    have : Obs.call k c r ∈ obs (N.nodes a).log := List.mem_filterMap.2 ⟨_, h, rfl⟩
    exact (inv.sound a ha).obs _ this
  obtain ⟨h1, h2⟩ := key a ha c r h
  obtain ⟨h3, h4⟩ := key b hb c' r' h'
  exact cert_agree few inv.just h2 h4 h1 h3

/-- **C44** (partial, as above). The blocks are the same, not only their hashes, if a hash stands for one height and content. -/
theorem C44_same_block_partial (lists : Nat → List Node) (correct : Address → Bool) (hl : GoodLists lists) (few : FewFaulty lists correct)
    (as : List (Address × NAct T)) (N : NetSys T) (hr : NetSys.new.run as = some N)
    (fair : FairSchedule lists correct as) (keeps : KeepsLocks lists correct as)
    (f : Hash → Nat × T) (fix : AlongNet (fun N a x => correct a = true → HashFixes f (N.nodes a) x ∧ LoadsSaved (N.nodes a) x) NetSys.new as)
    (a b : Address) (ha : correct a = true) (hb : correct b = true) (k : Nat) (c c' : Commit T) (r r' : Option Status)
    (h : .commitCall k c r ∈ (N.nodes a).log) (h' : .commitCall k c' r' ∈ (N.nodes b).log) :
    c.content = c'.content := by
  have e := C44_agreement_partial lists correct hl few as N hr fair keeps a b ha hb k c c' r r' h h'
  have key : ∀ a, correct a = true → ∀ c r, .commitCall k c r ∈ (N.nodes a).log → f c.proof.blockHash = (k, c.content) := by
    intro a ha c r h
    have hrun := net_steps a as _ N hr
    have h1 : Along (CheckOk f) a (NodeSys.new a) (stepsOf a as) := by
      refine net_along (ok := CheckOk f) a as NetSys.new N hr ?_
      refine alongNet_and (fun N b x h1 h2 hba => ?_) as _ fair fix
      subst hba
      exact ⟨(h2 ha).1, (h1 ha).saves, (h2 ha).2⟩
    obtain ⟨g, _⟩ := check_inv (f := f) hrun (fun as1 y as2 n1 e1 e2 => along_split as1 (e1 ▸ h1) e2)
    exact (g _ h).1
  have h1 := key a ha c r h
  have h2 := key b hb c' r' h'
  rw [e, h2] at h1
  exact (Prod.mk.inj h1).2.symm

/-- Nodes do not crash and are started once, with an empty storage, at a height of which they get the validator list. -/
def StartedOnce (lists : Nat → List Node) (N : NetSys T) (a : Address) : NAct T → Prop
  | .crash => False
  | .arm _ _ cut => cut = none
  | .start p e cut => cut = none ∧ (N.nodes a).log = [] ∧ e.walLoad = some none ∧ p.list = lists p.initHeight
  | _ => True

/-- The steps of correct nodes, without crashes. -/
structure CalmStep (lists : Nat → List Node) (correct : Address → Bool) (N : NetSys T) (a : Address) (x : NAct T) : Prop where
  once : StartedOnce lists N a x
  inSync : InSync (N.nodes a) x
  rounds : RoundSmall (N.nodes a) x
  answers : AnswersOk (N.nodes a) x
  saves : SavesWork (N.nodes a) x
  given : ∀ r e cut, x = .arm r e cut ∨ (∃ p, x = .start p e cut) → ∀ k c st, e.commit k c = some st → st.authorityList = lists st.height
  genuine : GenuineInput lists correct N.votes (N.nodes a) x
  keeps : NoSelfUnlock lists correct N.votes (N.nodes a) x

/-- **C43** (partial, as C44). Agreement without crashes. -/
theorem C43_agreement_partial (lists : Nat → List Node) (correct : Address → Bool) (hl : GoodLists lists) (few : FewFaulty lists correct)
    (as : List (Address × NAct T)) (N : NetSys T) (hr : NetSys.new.run as = some N)
    (calm : AlongNet (fun N a x => correct a = true → CalmStep lists correct N a x) NetSys.new as)
    (a b : Address) (ha : correct a = true) (hb : correct b = true) (k : Nat) (c c' : Commit T) (r r' : Option Status)
    (h : .commitCall k c r ∈ (N.nodes a).log) (h' : .commitCall k c' r' ∈ (N.nodes b).log) :
    c.proof.blockHash = c'.proof.blockHash := by
  refine C44_agreement_partial lists correct hl few as N hr ?_ ?_ a b ha hb k c c' r r' h h'
  · refine alongNet_mono (fun N a x h hc => ?_) as _ calm
    obtain ⟨h1, h2, h3, h4, h5, h6, h7, h8⟩ := h hc
    refine ⟨h2, h3, ?_, h4, h5, ?_, h7⟩
    · cases x with
      | start p e cut =>
        obtain ⟨_, e1, e2, e3⟩ := h1
        simp [StartOk, lastSaved, savedOf, e1, e2]
      | _ => trivial
    · cases x with
      | start p e cut =>
        obtain ⟨_, e1, e2, e3⟩ := h1
        refine ⟨h6 .event e cut (.inr ⟨p, rfl⟩), fun _ => ?_⟩
        simp [lastSaved, savedOf, e1, e3]
      | arm r e cut => exact h6 r e cut (.inl rfl)
      | _ => trivial
  · exact alongNet_mono (fun N a x h hc => (h hc).keeps) as _ calm

/-! ### Examples -/

namespace NetDemo

/-- The hypotheses hold in a schedule with a crash in which two nodes commit. -/
example : ∃ N, NetSys.new.run (sched agreeing) = some N ∧ FairSchedule lists correct (sched agreeing) ∧
    KeepsLocks lists correct (sched agreeing) ∧ committed (N.nodes [1]) = [(9, [5])] ∧ committed (N.nodes [2]) = [(9, [5])] := by
  have hd : (match NetSys.new.run (sched agreeing) with
      | some N => decide (committed (N.nodes [1]) = [(9, [5])] ∧ committed (N.nodes [2]) = [(9, [5])])
      | none => false) = true := by decide +kernel
  split at hd
  · rename_i N hN
    exact ⟨N, hN, stepB_sound (by decide +kernel), keepsB_sound (by decide +kernel), of_decide_eq_true hd⟩
  · cases hd

/-- `[5]` is the hash of the block `[5, 5]` of height 9. -/
def hash9 (h : Hash) : Nat × C := (9, if h = [5] then [5, 5] else [])

/-- The conditions of C44_same_block_partial on contents, computed. -/
def fixB (N : NetSys C) (a : Address) : NAct C → Bool
  | .arm (.raw (.signedProposal sp)) _ _ => decide (hash9 sp.proposal.blockHash = (sp.proposal.height, sp.proposal.content))
  | .start _ e _ =>
    match e.walLoad with
    | some (some b) =>
      match decWalInfo (T := C) b with
      | .ok w => decide (w ∈ savedOf (N.nodes a).log)
      | .error _ => true
    | _ => true
  | _ => true

theorem fixB_sound {l : List (UInt8 × List D)} (h : alongNetB fixB NetSys.new (sched l) = true) :
    AlongNet (fun N a x => correct a = true → HashFixes hash9 (N.nodes a) x ∧ LoadsSaved (N.nodes a) x) NetSys.new (sched l) := by
  refine alongNetB_sound _ _ (fun N y hy hb hc => ?_) h
  obtain ⟨a, d, rfl⟩ := mem_sched hy
  constructor
  · have hg : ∀ w k b h, (envN a w).getBlock k = some (b, h) → hash9 h = (k, b) := fun w k b h hg => by cases hg
    cases d with
    | raw m =>
      refine ⟨fun sp hsp => ?_, hg _⟩
      cases hsp
      exact of_decide_eq_true hb
    | event cut => exact ⟨(fun sp hsp => by cases hsp), hg _⟩
    | resp => exact ⟨(fun sp hsp => by cases hsp), hg _⟩
    | verified => exact ⟨(fun sp hsp => by cases hsp), hg _⟩
    | _ => trivial
  · cases d with
    | start w =>
      intro b w' h1 h2
      simp only [D.to, fixB, h1, h2] at hb
      exact of_decide_eq_true hb
    | _ => trivial

/-- The conditions of C44_same_block_partial hold in this schedule, too. -/
example : AlongNet (fun N a x => correct a = true → HashFixes hash9 (N.nodes a) x ∧ LoadsSaved (N.nodes a) x) NetSys.new (sched agreeing) :=
  fixB_sound (by decide +kernel)

/-- `StartedOnce`, computed. -/
def onceB (N : NetSys C) (a : Address) : NAct C → Bool
  | .crash => false
  | .arm _ _ cut => cut.isNone
  | .start p e cut => cut.isNone && (N.nodes a).log.isEmpty && decide (e.walLoad = some none) && decide (p.list = lists p.initHeight)
  | _ => true

theorem calm_sound {l : List (UInt8 × List D)}
    (h : alongNetB (fun N a x => onceB N a x && stepB N a x && keepsB N a x) NetSys.new (sched l) = true) :
    AlongNet (fun N a x => correct a = true → CalmStep lists correct N a x) NetSys.new (sched l) := by
  refine alongNetB_sound _ _ (fun N y hy hb hc => ?_) h
  simp only [stepB, keepsB, hc, Bool.not_true, Bool.false_or, Bool.and_eq_true] at hb
  obtain ⟨⟨h0, ⟨⟨h1, h2⟩, h3⟩, h4⟩, h5⟩ := hb
  obtain ⟨a, d, rfl⟩ := mem_sched hy
  refine ⟨?_, inSyncB_sound h1, roundSmallB_sound h2, ?_, ?_, ?_, genuineInputB_sound h4, noSelfB_sound h5⟩
  · cases d <;> first | trivial | (cases h0) | simpa [onceB, StartedOnce, D.to, and_assoc] using h0
  · cases d <;> first | exact envN_answers _ _ | trivial
  · cases d <;> first | (intro b; rfl) | trivial
  · intro r e cut hx k c st hst
    have : ∃ w, e = envN a w := by
      rcases hx with hx | ⟨p, hx⟩ <;> cases d <;> simp [D.to] at hx <;> exact ⟨_, hx.2.1.symm⟩
    obtain ⟨w, rfl⟩ := this
    simp only [envN, Option.some.injEq] at hst
    subst hst; rfl

/-- Validator 2 precommits; validators 1 and 2 commit. -/
def calm9 : List (UInt8 × List D) := [(2, lock9), (1, begin9 ++ commit9), (2, commit9)]

/-- The hypotheses of C43_agreement_partial hold in a schedule in which two nodes commit. -/
example : ∃ N, NetSys.new.run (sched calm9) = some N ∧
    AlongNet (fun N a x => correct a = true → CalmStep lists correct N a x) NetSys.new (sched calm9) ∧
    committed (N.nodes [1]) = [(9, [5])] ∧ committed (N.nodes [2]) = [(9, [5])] := by
  have hd : (match NetSys.new.run (sched calm9) with
      | some N => decide (committed (N.nodes [1]) = [(9, [5])] ∧ committed (N.nodes [2]) = [(9, [5])])
      | none => false) = true := by decide +kernel
  split at hd
  · rename_i N hN
    exact ⟨N, hN, calm_sound (by decide +kernel), of_decide_eq_true hd⟩
  · cases hd

end NetDemo

/-- C43 and C44 are false without `KeepsLocks`: a faulty third of the weight makes two correct nodes commit different blocks for height
9, although all conditions of `FairSchedule` hold (in particular all votes and certificates are genuine) and no node crashes.
Validator 2 has locked the first block, which validator 1 has committed. A later certificate for the *same* block, sent with a proposal of
another block, makes validator 2 give up its lock and vote for the other block. -/
theorem C43_false_with_self_unlock :
    FairSchedule NetDemo.lists NetDemo.correct (NetDemo.sched NetDemo.split9) ∧
    (∀ y ∈ NetDemo.sched NetDemo.split9, y.2 ≠ .crash) ∧
    ∃ N c c' r r', NetSys.new.run (NetDemo.sched NetDemo.split9) = some N ∧
      .commitCall 9 c r ∈ (N.nodes [1]).log ∧ .commitCall 9 c' r' ∈ (N.nodes [2]).log ∧
      c.proof.blockHash = [5] ∧ c'.proof.blockHash = [6] ∧ c.content ≠ c'.content := by
  refine ⟨NetDemo.stepB_sound (by decide +kernel), ?_, ?_⟩
  · intro y hy
    have : (NetDemo.sched NetDemo.split9).all (fun y => match y.2 with | .crash => false | _ => true) = true := by decide +kernel
    have := List.all_eq_true.1 this y hy
    intro hc
    rw [hc] at this; cases this
  · have hd : (match NetSys.new.run (NetDemo.sched NetDemo.split9) with
        | some N => decide ((commitsAt (N.nodes [1]).log).map (fun x => (x.1, x.2.proof.blockHash, x.2.content)) = [(9, [5], [5, 5])] ∧
            (commitsAt (N.nodes [2]).log).map (fun x => (x.1, x.2.proof.blockHash, x.2.content)) = [(9, [6], [6, 6])])
        | none => false) = true := by decide +kernel
    split at hd
    · rename_i N hN
      obtain ⟨h1, h2⟩ := of_decide_eq_true hd
      obtain ⟨c, r, m1, e1, e2⟩ := NetDemo.commit_of h1
      obtain ⟨c', r', m2, e3, e4⟩ := NetDemo.commit_of h2
      exact ⟨N, c, c', r, r', hN, m1, m2, e1, e3, by rw [e2, e4]; decide⟩
    · cases hd

/-- C43 is false if certificates are only verified the way the code does it (C19): a certificate signed by one faulty validator, of a
ninth of the weight, is accepted; two correct nodes commit different blocks although no correct node has precommitted anything. -/
theorem C43_false_with_weak_certificates :
    ∃ N c c' r r', NetSys.new.run (NetDemo.sched NetDemo.weakly) = some N ∧
      .commitCall 9 c r ∈ (N.nodes [1]).log ∧ .commitCall 9 c' r' ∈ (N.nodes [2]).log ∧
      c.proof.blockHash = [5] ∧ c'.proof.blockHash = [6] ∧ c.content ≠ c'.content ∧
      (∀ v ∈ N.votes, v.2.voteType = .prevote) ∧
      (∀ h ∈ [[5], [6]], ∀ a ∈ [[1], [2]],
        verifyTask (StDemo.crypto a) (.aggregatedVote (NetDemo.weak h) : OverlordMsg StDemo.C) (Authority.update NetDemo.nodes) = true) := by
  have hd : (match NetSys.new.run (NetDemo.sched NetDemo.weakly) with
      | some N => decide ((commitsAt (N.nodes [1]).log).map (fun x => (x.1, x.2.proof.blockHash, x.2.content)) = [(9, [5], [5, 5])] ∧
          (commitsAt (N.nodes [2]).log).map (fun x => (x.1, x.2.proof.blockHash, x.2.content)) = [(9, [6], [6, 6])] ∧
          N.votes.all (fun v => v.2.voteType = .prevote) = true)
      | none => false) = true := by decide +kernel
  split at hd
  · rename_i N hN
    obtain ⟨h1, h2, h3⟩ := of_decide_eq_true hd
    obtain ⟨c, r, m1, e1, e2⟩ := NetDemo.commit_of h1
    obtain ⟨c', r', m2, e3, e4⟩ := NetDemo.commit_of h2
    refine ⟨N, c, c', r, r', hN, m1, m2, e1, e3, by rw [e2, e4]; decide, fun v hv => by simpa using List.all_eq_true.1 h3 v hv, ?_⟩
    decide +kernel
  · cases hd

end Overlord
