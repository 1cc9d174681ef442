import Verif.Proofs.NetGen
import Verif.Props.Net
import Verif.Props.Check

/-!
# C51: committed blocks were checked by correct validators; C52: correct nodes send only what is genuine
-/

set_option linter.unusedVariables false
set_option linter.unusedSimpArgs false
set_option linter.unusedSectionVars false

namespace Overlord
open M Spec

variable {T : Type} [ContentCodec T] [DecidableEq T]

theorem EverChecked.snoc {addr : Address} {as : List (NAct T)} {a : NAct T} {k : Nat} {h : Hash} {c : T}
    (hc : EverChecked addr as k h c) : EverChecked addr (as ++ [a]) k h c := by
  obtain ⟨as1, i, as2, n, r, h1, h2, h3⟩ := hc
  exact ⟨as1, i, as2 ++ [a], n, r, by simp [h1], h2, h3⟩

/-- Every precommit in the log of a node is for a checked block. -/
theorem precommits_checked {addr : Address} {as : List (NAct T)} {n : NodeSys T} (hr : (NodeSys.new addr).run addr as = some n) :
    ∀ sv ∈ votesOf n.log, sv.vote.voteType = .precommit → sv.vote.blockHash ≠ [] → ∃ k c, EverChecked addr as k sv.vote.blockHash c := by
  refine life_inv (P := fun as (n : NodeSys T) => ∀ sv ∈ votesOf n.log, sv.vote.voteType = .precommit → sv.vote.blockHash ≠ [] →
    ∃ k c, EverChecked addr as k sv.vote.blockHash c) (by simp [NodeSys.new, NodeSys.fresh, votesOf]) ?_ as n hr
  intro as n a n' hrun ih ha sv hsv hty hne
  obtain ⟨l, hl⟩ := act_grows ha
  rw [hl, votesOf_append] at hsv
  rcases List.mem_append.1 hsv with hsv | hsv
  · obtain ⟨k, c, h⟩ := ih sv hsv hty hne
    exact ⟨k, c, EverChecked.snoc h⟩
  · obtain ⟨k, c, as1, i, as2, n1, r, h1, _, h2, h3⟩ := C50_precommit_after_check addr as a n n' hrun ha l hl sv hsv hty hne
    exact ⟨k, c, EverChecked.snoc ⟨as1, i, as2, n1, r, h1, h2, h3⟩⟩

/-- A check was of the block that belongs to the hash. -/
theorem everChecked_fixes {f : Hash → Nat × T} {addr : Address} {as : List (NAct T)} {n : NodeSys T}
    (hr : (NodeSys.new addr).run addr as = some n) (h1 : Along (CheckOk f) addr (NodeSys.new addr) as)
    {k : Nat} {h : Hash} {c : T} (hc : EverChecked addr as k h c) : f h = (k, c) := by
  obtain ⟨as1, i, as2, n1, r, e1, e2, e3⟩ := hc
  have hd : n1.down = false := by
    subst e1
    rw [run_app _ e2] at hr
    simp only [NodeSys.run, NodeSys.act] at hr
    cases hdn : n1.down
    · rfl
    · simp [hdn] at hr
  obtain ⟨_, g⟩ := check_inv (f := f) e2 (fun bs a bs' n2 e4 e5 => by
    have e : as = bs ++ a :: (bs' ++ .checkDone i true :: as2) := by rw [e1, e4]; simp
    exact along_split bs (e ▸ h1) e5)
  exact (g hd).checking _ _ _ _ (List.mem_of_getElem? e3)

/-- With few faulty validators, the correct ones behind a certificate have more than a third of the weight. -/
theorem certified_third {lists : Nat → List Node} {correct : Address → Bool} (few : FewFaulty lists correct)
    {votes : List (Address × Vote)} {ty : VoteType} {k r : Nat} {h : Hash} (hc : Certified lists correct votes ty k r h) :
    total (lists k) < 3 * weight (lists k) (fun a => correct a && decide ((a, (⟨k, r, ty, h⟩ : Vote)) ∈ votes)) := by
  unfold Certified Quorum at hc
  have h1 := few k
  have h2 := weight_split (lists k) (fun a => !correct a || decide ((a, (⟨k, r, ty, h⟩ : Vote)) ∈ votes)) correct
  have h3 := weight_mono (lists k) (fun a => (!correct a || decide ((a, (⟨k, r, ty, h⟩ : Vote)) ∈ votes)) && correct a)
    (fun a => correct a && decide ((a, (⟨k, r, ty, h⟩ : Vote)) ∈ votes)) (by
      intro n _ hn
      cases hcn : correct n.address <;> simp [hcn] at hn ⊢
      exact hn)
  have h4 := weight_mono (lists k) (fun a => (!correct a || decide ((a, (⟨k, r, ty, h⟩ : Vote)) ∈ votes)) && !correct a)
    (fun a => !correct a) (by
      intro n _ hn
      simp only [Bool.and_eq_true] at hn
      exact hn.2)
  omega

/-- **C51** (partial). Whenever a correct node passes a block to `commit()`, there are correct validators of the block's height with
more than a third of the weight, each of which has released a precommit for exactly this block (height, round and hash of the commit's
proof), and for each of which its own application's `check_block` succeeded for the block's hash. Over whole lives with
crashes and restarts, every schedule, whatever faulty validators send. Used on every prefix of a schedule it says that
the precommits and checks come before the commit.
Missing: `GenuineSchedule` excludes certificates whose weight was not counted (false for them, see below). Neither `InSync` nor
`KeepsLocks` is needed. -/
theorem C51_commit_was_checked_partial (lists : Nat → List Node) (correct : Address → Bool) (hl : GoodLists lists) (few : FewFaulty lists correct)
    (as : List (Address × NAct T)) (N : NetSys T) (hr : NetSys.new.run as = some N) (fair : GenuineSchedule lists correct as)
    (a : Address) (ha : correct a = true) (k : Nat) (c : Commit T) (r : Option Status) (h : .commitCall k c r ∈ (N.nodes a).log) :
    ∃ P : Address → Bool, total (lists k) < 3 * weight (lists k) P ∧ ∀ b, P b = true → correct b = true ∧
      (∃ sv ∈ votesOf (N.nodes b).log, sv.vote = ⟨k, c.proof.round, .precommit, c.proof.blockHash⟩) ∧
      ∃ k' c', EverChecked b (stepsOf b as) k' c.proof.blockHash c' := by
  have inv := netGen_run hl as _ N (netGen_new lists correct) fair hr
  obtain ⟨h1, h2⟩ : ObsGen (Certified lists correct N.votes) (Obs.call k c r) :=
    (inv.gen a ha).obs _ (List.mem_filterMap.2 ⟨_, h, rfl⟩)
  refine ⟨_, certified_third few h1, ?_⟩
  intro b hb
  simp only [Bool.and_eq_true, decide_eq_true_eq] at hb
  obtain ⟨sv, hs1, hs2⟩ := (inv.mine b _).1 hb.2
  refine ⟨hb.1, ⟨sv, hs1, hs2⟩, ?_⟩
  have hrun := net_steps b as _ N hr
  have := precommits_checked hrun sv hs1 (by rw [hs2]) (by rw [hs2]; exact h2)
  rw [hs2] at this
  exact this

/-- **C51, with content** (partial, as above). If a hash stands for one height and content, what those validators' applications checked was
this height and the very content that is committed. -/
theorem C51_checked_this_content_partial (lists : Nat → List Node) (correct : Address → Bool) (hl : GoodLists lists) (few : FewFaulty lists correct)
    (as : List (Address × NAct T)) (N : NetSys T) (hr : NetSys.new.run as = some N) (fair : GenuineSchedule lists correct as)
    (f : Hash → Nat × T) (fix : AlongNet (fun N a x => correct a = true → HashFixes f (N.nodes a) x ∧ LoadsSaved (N.nodes a) x) NetSys.new as)
    (a : Address) (ha : correct a = true) (k : Nat) (c : Commit T) (r : Option Status) (h : .commitCall k c r ∈ (N.nodes a).log) :
    ∃ P : Address → Bool, total (lists k) < 3 * weight (lists k) P ∧ ∀ b, P b = true → correct b = true ∧
      (∃ sv ∈ votesOf (N.nodes b).log, sv.vote = ⟨k, c.proof.round, .precommit, c.proof.blockHash⟩) ∧
      EverChecked b (stepsOf b as) k c.proof.blockHash c.content := by
  have ok : ∀ b, correct b = true → Along (CheckOk f) b (NodeSys.new b) (stepsOf b as) := by
    intro b hb
    refine net_along (ok := CheckOk f) b as NetSys.new N hr ?_
    refine alongNet_and (fun N b' x h1 h2 hba => ?_) as _ fair fix
    subst hba
    exact ⟨(h2 hb).1, (h1 hb).saves, (h2 hb).2⟩
  have hf : f c.proof.blockHash = (k, c.content) := by
    obtain ⟨g, _⟩ := check_inv (f := f) (net_steps a as _ N hr) (fun as1 y as2 n1 e1 e2 => along_split as1 (e1 ▸ ok a ha) e2)
    exact (g _ h).1
  obtain ⟨P, h1, h2⟩ := C51_commit_was_checked_partial lists correct hl few as N hr fair a ha k c r h
  refine ⟨P, h1, fun b hb => ?_⟩
  obtain ⟨g1, g2, k', c', g3⟩ := h2 b hb
  refine ⟨g1, g2, ?_⟩
  have := everChecked_fixes (net_steps b as _ N hr) (ok b g1) g3
  rw [hf] at this
  cases this
  exact g3

/-- C51 is false with the checks the code makes (C19): a block is committed although no correct validator has precommitted anything. -/
theorem C51_false_with_weak_certificates :
    ∃ N c r, NetSys.new.run (NetDemo.sched NetDemo.weakly) = some N ∧ NetDemo.correct [1] = true ∧
      .commitCall 9 c r ∈ (N.nodes [1]).log ∧
      ¬ ∃ P : Address → Bool, total NetDemo.nodes < 3 * weight NetDemo.nodes P ∧ ∀ b, P b = true → NetDemo.correct b = true ∧
        ∃ sv ∈ votesOf (N.nodes b).log, sv.vote = ⟨9, c.proof.round, .precommit, c.proof.blockHash⟩ := by
  obtain ⟨N, c, c', r, r', h1, h2, h3, h4, h5, h6, h7, h8⟩ := C43_false_with_weak_certificates
  refine ⟨N, c, r, h1, by decide, h2, ?_⟩
  rintro ⟨P, g1, g2⟩
  have mine : ∀ (as : List (Address × NAct StDemo.C)) (N N' : NetSys StDemo.C),
      (∀ a v, (a, v) ∈ N.votes ↔ ∃ sv ∈ votesOf (N.nodes a).log, sv.vote = v) → N.run as = some N' →
      ∀ a v, (a, v) ∈ N'.votes ↔ ∃ sv ∈ votesOf (N'.nodes a).log, sv.vote = v := by
    intro as
    induction as with
    | nil => intro N N' h hr; simp only [NetSys.run, Option.some.injEq] at hr; exact hr ▸ h
    | cons y as ih =>
      obtain ⟨a, x⟩ := y
      intro N N' h hr
      simp only [NetSys.run] at hr
      split at hr
      · cases hr
      · rename_i N1 h1
        exact ih N1 N' (mine_step h h1) hr
  have hm := mine _ _ N (netGen_new NetDemo.lists NetDemo.correct).mine h1
  have none : ∀ b, P b = false := by
    intro b
    cases hP : P b with
    | false => rfl
    | true =>
      obtain ⟨_, sv, k1, k2⟩ := g2 b hP
      have := h7 _ ((hm b sv.vote).2 ⟨sv, k1, rfl⟩)
      simp only [k2] at this
      cases this
  have : weight NetDemo.nodes P = 0 := by
    rw [weight_congr _ P (fun _ => false) (fun n _ => none _)]
    decide
  omega

/-! ### C52 -/

theorem voters_own {addr : Address} {as : List (NAct T)} {n : NodeSys T} (hr : (NodeSys.new addr).run addr as = some n) :
    n.st.address = addr ∧ ∀ sv ∈ votesOf n.log, sv.voter = addr := by
  refine life_inv (P := fun as (n : NodeSys T) => n.st.address = addr ∧ ∀ sv ∈ votesOf n.log, sv.voter = addr)
    ⟨rfl, by simp [NodeSys.new, NodeSys.fresh, votesOf]⟩ ?_ as n hr
  rintro as n a n' hrun ⟨ih1, ih2⟩ ha
  have addr_arm : ∀ (i : Input T) e (s : State T), s.address = addr → (runArm i e ⟨s, []⟩).2.st.address = addr := fun i e s h =>
    arm_state_inv (e := e) (i := i) (P := fun s => s.address = addr) h fun _ _ _ h hm => (micro_address hm).trans h
  have hst : n'.st.address = addr := by
    cases a with
    | start p e cut =>
      simp only [NodeSys.act] at ha
      split at ha
      · split at ha
        · cases ha; exact addr_arm _ _ _ rfl
        · cases ha; rw [drain_st]; exact addr_arm _ _ _ rfl
      · cases ha
    | arm x e cut =>
      simp only [NodeSys.act] at ha
      split at ha
      · cases ha
      · split at ha
        · cases ha
        · cases ha; exact addr_arm _ _ _ ih1
    | crash => simp only [NodeSys.act, Option.some.injEq] at ha; subst ha; exact ih1
    | verifyDone c i =>
      simp only [NodeSys.act] at ha
      split at ha
      · cases ha
      · split at ha
        · cases ha
        · cases ha; exact ih1
    | checkDone i ok =>
      simp only [NodeSys.act] at ha
      split at ha
      · cases ha
      · split at ha
        · cases ha
        · cases ha; exact ih1
    | smr =>
      simp only [NodeSys.act] at ha
      split at ha
      · cases ha
      · split at ha
        · cases ha
        · split at ha
          · cases ha
          · cases ha; exact ih1
    | set => simp only [NodeSys.act] at ha; split at ha; cases ha; obtain ⟨_, _, rfl⟩ := Option.map_eq_some_iff.1 ha; exact ih1
    | expire i => simp only [NodeSys.act] at ha; split at ha; cases ha; obtain ⟨_, _, rfl⟩ := Option.map_eq_some_iff.1 ha; exact ih1
    | fire i => simp only [NodeSys.act] at ha; split at ha; cases ha; obtain ⟨_, _, rfl⟩ := Option.map_eq_some_iff.1 ha; exact ih1
  refine ⟨hst, ?_⟩
  rcases act_log ha with ⟨h, _⟩ | ⟨i, e, cut, s, h, _, hcase⟩
  · rw [h]; exact ih2
  · rw [h]
    intro sv hsv
    rw [votesOf_append] at hsv
    rcases List.mem_append.1 hsv with hsv | hsv
    · exact ih2 sv hsv
    · have hsv := votesOf_cut hsv
      rcases hcase with ⟨_, rfl, hi, _⟩ | ⟨_, rfl, p, _, rfl⟩
      · rw [votes_own hi sv hsv, ih1]
      · rw [start_votes (start_out e _)] at hsv; cases hsv

/-- **C52** (partial). What a correct node sends, to all or to the leader, is `Genuine`: its votes are its own; a certificate it sends has a
quorum of released votes behind it (counting faulty validators as voting for anything); so do the lock rounds of its proposals and the
certificates in its chokes. So `GenuineInput` in C43, C44, C51 restricts only what faulty validators send.
Missing: chokes of height 0 (a node that has never been given a status), and, as above, what is not a `GenuineSchedule`. -/
theorem C52_sends_genuine_partial (lists : Nat → List Node) (correct : Address → Bool) (hl : GoodLists lists)
    (as : List (Address × NAct T)) (N : NetSys T) (hr : NetSys.new.run as = some N) (fair : GenuineSchedule lists correct as)
    (a : Address) (ha : correct a = true) (m : OverlordMsg T)
    (h : .broadcast m ∈ (N.nodes a).log ∨ ∃ p, .transmit p m ∈ (N.nodes a).log)
    (h0 : ∀ sc, m = .signedChoke sc → sc.choke.height ≠ 0) : Genuine lists correct N.votes m := by
  have inv := netGen_run hl as _ N (netGen_new lists correct) fair hr
  have hown := (voters_own (net_steps a as _ N hr)).2
  rcases h with h | ⟨p, h⟩
  · have g := (inv.gen a ha).log _ h
    cases m with
    | aggregatedVote qc => exact g
    | signedProposal sp =>
      intro l hl'
      obtain ⟨g1, g2, g3, g4⟩ := g l hl'
      unfold QcIn at g1
      rw [g2, g3, g4] at g1
      exact ⟨_, g1⟩
    | signedChoke sc =>
      intro qc _ hf hh
      rcases g qc hf with e | e
      · subst e
        exact absurd hh.symm (h0 sc rfl)
      · exact e
    | _ => exact absurd g id
  · obtain ⟨sv, rfl⟩ := (inv.gen a ha).log _ h
    have hsv : sv ∈ votesOf (N.nodes a).log := List.mem_filterMap.2 ⟨_, h, rfl⟩
    intro _
    rw [hown sv hsv]
    exact (inv.mine a _).2 ⟨sv, hsv, rfl⟩

/-- **C52** (partial, as above): the lock of a correct node's proposal comes with its certificate: a prevote certificate of the proposal's height
and of the lock's round, with a quorum of released prevotes behind it. -/
theorem C52_proposal_lock_is_certified_partial (lists : Nat → List Node) (correct : Address → Bool) (hl : GoodLists lists)
    (as : List (Address × NAct T)) (N : NetSys T) (hr : NetSys.new.run as = some N) (fair : GenuineSchedule lists correct as)
    (a : Address) (ha : correct a = true) (sp : SignedProposal T) (h : .broadcast (.signedProposal sp) ∈ (N.nodes a).log)
    (l : PoLC) (hlk : sp.proposal.lock = some l) :
    Certified lists correct N.votes .prevote sp.proposal.height l.lockRound l.lockVotes.blockHash := by
  have inv := netGen_run hl as _ N (netGen_new lists correct) fair hr
  obtain ⟨g1, g2, g3, g4⟩ := (inv.gen a ha).log _ h l hlk
  unfold QcIn at g1
  rw [g2, g3, g4] at g1
  exact g1

theorem FairSchedule.genuine {lists : Nat → List Node} {correct : Address → Bool} {as : List (Address × NAct T)}
    (h : FairSchedule lists correct as) : GenuineSchedule lists correct as :=
  alongNet_mono (fun N a x h hc => ⟨(h hc).start, (h hc).answers, (h hc).saves, (h hc).given, (h hc).genuine⟩) as _ h

/-! Non-vacuity -/

namespace NetDemo

/-- C51: in the schedule of C44 two nodes commit. -/
example : ∃ N c r, NetSys.new.run (sched agreeing) = some N ∧ GenuineSchedule lists correct (sched agreeing) ∧ correct [1] = true ∧
    .commitCall 9 c r ∈ (N.nodes [1]).log ∧ c.proof.blockHash = [5] := by
  have hd : (match NetSys.new.run (sched agreeing) with
      | some N => decide ((commitsAt (N.nodes [1]).log).map (fun x => (x.1, x.2.proof.blockHash, x.2.content)) = [(9, [5], [5, 5])])
      | none => false) = true := by decide +kernel
  split at hd
  · rename_i N hN
    obtain ⟨c, r, m1, e1, e2⟩ := commit_of (of_decide_eq_true hd)
    exact ⟨N, c, r, hN, FairSchedule.genuine (stepB_sound (by decide +kernel)), by decide, m1, e1⟩
  · cases hd

/-- What a node has sent. -/
def sentKinds (l : List (Effect C)) : List String :=
  l.filterMap fun
    | .broadcast (.aggregatedVote _) => some "certificate"
    | .broadcast (.signedProposal _) => some "proposal"
    | .broadcast (.signedChoke _) => some "choke"
    | .transmit _ (.signedVote _) => some "vote"
    | _ => none

/-- A round of height 9 without a proposal: both timeouts, then the certificate for no block. -/
def emptyRound (r i : Nat) : List D :=
  [.expire i, .fire 0, .smr, .event none, .set, .expire i, .fire 0, .smr, .event none] ++
    dl (.aggregatedVote (Q r .precommit [])) ++ [.smr, .event none, .set, .set]

/-- Validator 2 locks a block in round 0; a choke, and three rounds without a proposal, lead to round 4, which it leads itself: it
proposes the block again, and makes the certificate from its own vote and those of the others. -/
def leads4 : List (UInt8 × List D) :=
  [(2, lock9 ++ [.set, .set, .set, .expire 2, .fire 0, .smr, .event none] ++
    dl (.signedChoke (StDemo.choke 3 9 0 (.precommitQC mockInitQc))) ++ dl (.signedChoke (StDemo.choke 4 9 0 (.precommitQC mockInitQc))) ++
    dl (.signedChoke (StDemo.choke 5 9 0 (.precommitQC mockInitQc))) ++ [.smr, .event none, .set, .set] ++
    emptyRound 1 3 ++ emptyRound 2 4 ++ emptyRound 3 5 ++ [.smr, .event none] ++
    dl (.signedVote (StDemo.vote 3 9 4 .prevote [5])) ++ dl (.signedVote (StDemo.vote 4 9 4 .prevote [5])) ++
    dl (.signedVote (StDemo.vote 5 9 4 .prevote [5])))]

/-- C52: a correct node sends votes, a choke, a proposal with a lock, and a certificate. -/
example : ∃ N, NetSys.new.run (sched leads4) = some N ∧ GenuineSchedule lists correct (sched leads4) ∧ correct [2] = true ∧
    sentKinds (N.nodes [2]).log = ["vote", "vote", "choke", "vote", "vote", "vote", "vote", "vote", "vote", "proposal", "certificate"] := by
  have hd : (match NetSys.new.run (sched leads4) with
      | some N => decide (sentKinds (N.nodes [2]).log =
          ["vote", "vote", "choke", "vote", "vote", "vote", "vote", "vote", "vote", "proposal", "certificate"])
      | none => false) = true := by decide +kernel
  split at hd
  · rename_i N hN
    exact ⟨N, hN, FairSchedule.genuine (stepB_sound (by decide +kernel)), by decide, of_decide_eq_true hd⟩
  · cases hd

end NetDemo

end Overlord
