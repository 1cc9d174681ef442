import Verif.Proofs.Early
import Verif.Proofs.StateDemo

/-!
# C64 — messages that arrive before their height are not lost

English: a vote, proposal or certificate for one of the next five heights that reaches a validator is verified
against the new validator list and handled when the node gets to that height.

Proved for the first message of its slot (`_partial`); the full claim is false, because what arrives early is
cached unverified: see the `C64_…displaces…` theorems.
-/

set_option linter.unusedSimpArgs false
set_option linter.unusedVariables false
set_option linter.unusedSectionVars false

namespace Overlord
open M Spec

variable {T : Type} [ContentCodec T] [DecidableEq T]

theorem ahead_inside {s : State T} {h r : Nat} (ha : Ahead s h r) : ¬ OutsideWindow s.height s.round h r := by
  obtain ⟨h1, h2, h3⟩ := ha
  unfold OutsideWindow
  omega

/-- The first vote of a validator for a height ahead is verified again, against the validator list of that
height, when the node gets there — whatever else happens in between, except a restart. -/
theorem C64_vote_partial (e0 e1 : Env T) (s s1 : State T) (sv : SignedVote) (ins : List (Env T × Input T))
    (i1 : Input T)
    -- the vote arrives at a validator that is not there yet
    (hw : NoWrap s) (hp : s.consensusPower = true) (hk : Ahead s sv.vote.height sv.vote.round)
    (ha : s.authority.contains sv.voter = true)
    -- nothing is stored for its slot
    (hq : ∀ qc, s.votes.getQcById sv.vote.height sv.vote.round sv.vote.voteType ≠ .ok qc)
    (hn : keptVote s sv.vote.height sv.vote.round sv.vote.voteType sv.voter = none)
    -- anything happens
    (h1 : (next e0 (.verified (.signedVote sv)) s).after ins = some s1)
    (hi : ∀ x ∈ ins, x.2 ≠ .start) (hi1 : i1 ≠ .start)
    -- the node gets to the height of the vote
    (hr : Reaches sv.vote.height e1 i1 s1) :
    .spawnVerify (.signedVote sv) (next e1 i1 s1).authority ∈ effects e1 i1 s1 := by
  have h0 : Early.InCache (next e0 (.verified (.signedVote sv)) s) (.signedVote sv) := by
    have := C36_vote_inside_kept e0 s sv hw hp (ahead_inside hk) ha hq hn
    rw [keptVote_poolD] at this
    exact this
  have hs : ∀ i : Input T, Early.Spares i (.signedVote sv) := fun i qc hqc => by cases hqc
  have hc := Early.kept_after h0 h1 hi (fun x _ => hs x.2) hr.below
  exact Early.reaches_rechecks hi1 (hs i1) hc hr

/-- The same for the first proposal of a height and round, if its proposer leads that round by the list the node
has when it arrives. -/
theorem C64_proposal_partial (e0 e1 : Env T) (s s1 : State T) (sp : SignedProposal T)
    (ins : List (Env T × Input T)) (i1 : Input T)
    (hw : NoWrap s) (hp : s.consensusPower = true) (hk : Ahead s sp.proposal.height sp.proposal.round)
    (ha : s.authority.contains sp.proposal.proposer = true)
    (hl : s.authority.getProposer e0.mode sp.proposal.height sp.proposal.round = .ok sp.proposal.proposer)
    (hn : ∀ old, s.proposals.get sp.proposal.height sp.proposal.round ≠ .ok old)
    (h1 : (next e0 (.verified (.signedProposal sp)) s).after ins = some s1)
    (hi : ∀ x ∈ ins, x.2 ≠ .start) (hi1 : i1 ≠ .start)
    (hr : Reaches sp.proposal.height e1 i1 s1) :
    .spawnVerify (.signedProposal sp) (next e1 i1 s1).authority ∈ effects e1 i1 s1 := by
  have hnone : AMap.get? ((AMap.get? s.proposals sp.proposal.height).getD []) sp.proposal.round = none := by
    cases hg : AMap.get? s.proposals sp.proposal.height with
    | none => simp [AMap.get?]
    | some rc =>
      cases hg2 : AMap.get? rc sp.proposal.round with
      | none => simpa using hg2
      | some old => exact absurd (by simp [ProposalCollector.get, hg, hg2]) (hn old)
  have h0 : Early.InCache (next e0 (.verified (.signedProposal sp)) s) (.signedProposal sp) := by
    have : wp (runArm (.verified (.signedProposal sp))) e0 ⟨s, []⟩
        (fun _ w => w.st.proposals.get sp.proposal.height sp.proposal.round = .ok sp)
        (fun _ w => w.st.proposals.get sp.proposal.height sp.proposal.round = .ok sp) := by
      unfold runArm handleMsg handleSignedProposal verifyProposer verifyAddress filterSignedProposal
      wps
      have hgt : (sp.proposal.height = s.height ∧ sp.proposal.round ≠ s.round) ∨ sp.proposal.height > s.height :=
        .inr hk.1
      simp [hp, ha, hl, filterMessage_inside hw (ahead_inside hk), ProposalCollector.insert, hnone, hgt]
      simp [ProposalCollector.get, AMap.get?_insert_self]
    exact wp_post this
  have hs : ∀ i : Input T, Early.Spares i (.signedProposal sp) := fun i qc hqc => by cases hqc
  have hc := Early.kept_after h0 h1 hi (fun x _ => hs x.2) hr.below
  exact Early.reaches_rechecks hi1 (hs i1) hc hr

/-- The same for a certificate (of at most four heights ahead and of a round below ten), if no other certificate
for the same height, round and type arrives after it. -/
theorem C64_certificate_partial (e0 e1 : Env T) (s s1 : State T) (qc : AggregatedVote)
    (ins : List (Env T × Input T)) (i1 : Input T)
    (hw : NoWrap s) (hp : s.consensusPower = true)
    (hk : s.height < qc.height ∧ qc.height < s.height + 5 ∧ qc.round < 10)
    (h1 : (next e0 (.verified (.aggregatedVote qc)) s).after ins = some s1)
    (hi : ∀ x ∈ ins, x.2 ≠ .start) (hi1 : i1 ≠ .start)
    (ho : ∀ i, (i = i1 ∨ i ∈ ins.map Prod.snd) → ∀ qc', BringsQc i qc' → SameSlot qc' qc → qc' = qc)
    (hr : Reaches qc.height e1 i1 s1) :
    .spawnVerify (.aggregatedVote qc) (next e1 i1 s1).authority ∈ effects e1 i1 s1 := by
  have h0 : Early.InCache (next e0 (.verified (.aggregatedVote qc)) s) (.aggregatedVote qc) := by
    have hset : qcId (s.votes.setQc qc) qc.height qc.round qc.voteType = some qc := by
      rw [qcId_setQc, if_pos ⟨rfl, rfl, rfl⟩]
    have hmod : (s.height + 5) % U64 = s.height + 5 := Nat.mod_eq_of_lt hw.1
    have : wp (runArm (.verified (.aggregatedVote qc))) e0 ⟨s, []⟩
        (fun _ w => qcId w.st.votes qc.height qc.round qc.voteType = some qc)
        (fun _ w => qcId w.st.votes qc.height qc.round qc.voteType = some qc) := by
      unfold runArm handleMsg handleAggregatedVote FUTURE_HEIGHT_GAP FUTURE_ROUND_GAP
      wps
      refine ⟨fun h => by simp [hp] at h, fun _ => ⟨fun h => by omega, fun _ => ⟨fun _ => ⟨fun _ => hset,
        fun h => by omega⟩, fun h => by omega⟩⟩⟩
    exact wp_post this
  have hs : ∀ i, (i = i1 ∨ i ∈ ins.map Prod.snd) → Early.Spares i (.aggregatedVote qc : OverlordMsg T) := by
    intro i hm q hq qc' hb hss
    cases hq
    exact ho i hm qc' hb hss
  have hc := Early.kept_after h0 h1 hi (fun x hx => hs x.2 (.inr (List.mem_map.2 ⟨x, hx, rfl⟩))) hr.below
  exact Early.reaches_rechecks hi1 (hs i1 (.inl rfl)) hc hr

namespace EarlyDemo
open StDemo

/-- The list of height 9: validator 4 has left, validator 5 has joined. -/
def nodes9 : List Node := [⟨[1], 1, 1⟩, ⟨[2], 1, 1⟩, ⟨[3], 1, 1⟩, ⟨[5], 1, 1⟩]
def status (h : Nat) (l : List Node) : Status :=
  { height := h, interval := none, timerConfig := none, authorityList := l }

/-- While the node is at height 7: a vote, a proposal and a certificate for height 9. -/
def v9 : SignedVote := vote 3 9 2 .prevote [5]
def p9 : SignedProposal C := prop 2 9 2 [5, 5] [5]
def c9 : AggregatedVote := cert [1, 2, 3] 9 1 .prevote [5]

/-- Something else happens, and the node moves to height 8. -/
def between : List (Env C × Input C) :=
  [(env, .verified (.signedVote (vote 3 9 2 .prevote [6]))), (env, .verified (.signedVote (vote 2 9 2 .prevote [5]))),
   (env, .verified (.signedProposal (prop 2 9 2 [6, 6] [6]))), (env, .verified (.aggregatedVote (cert [2, 3, 4] 9 1 .precommit [5]))),
   (env, .verified (.richStatus (status 8 nodes))), (env, .verified (.aggregatedVote (cert [2, 3, 4] 8 0 .prevote [5])))]

def at8 (i : Input C) : State C := ((next env i st0).after between).getD st0

theorem between_ok (i : Input C) (h : ((next env i st0).after between).isSome = true) :
    (next env i st0).after between = some (at8 i) := by
  unfold at8
  cases hx : (next env i st0).after between with
  | none => rw [hx] at h; cases h
  | some s => rfl

/-- The boolean form of `Reaches`. -/
def reachesB (k : Nat) (i : Input C) (s : State C) : Bool :=
  decide (s.height < k) && decide ((next env i s).height = k) && (next env i s).consensusPower &&
    (effects env i s).all fun | .saveWal _ false => false | _ => true

theorem reachesB_sound {k : Nat} {i : Input C} {s : State C} (h : reachesB k i s = true) : Reaches k env i s := by
  simp only [reachesB, Bool.and_eq_true, decide_eq_true_eq, List.all_eq_true] at h
  obtain ⟨⟨⟨h1, h2⟩, h3⟩, h4⟩ := h
  exact ⟨h1, h2, h3, fun w hw => by have := h4 _ hw; cases this⟩

theorem between_alive : ∀ x ∈ between, x.2 ≠ .start := by
  have h : between.all (fun x => decide (x.2 ≠ .start)) = true := by decide +kernel
  intro x hx
  exact of_decide_eq_true (List.all_eq_true.1 h x hx)

/-- The certificates an input brings, as a list. -/
def brought : Input C → List AggregatedVote
  | .verified (.aggregatedVote qc) => [qc]
  | .verified (.signedChoke sc) =>
    match sc.choke.from with | .prevoteQC qc => [qc] | .precommitQC qc => [qc] | _ => []
  | _ => []

theorem brought_sound {i : Input C} {qc : AggregatedVote} (h : BringsQc i qc) : qc ∈ brought i := by
  rcases h with rfl | ⟨sc, rfl, h | h⟩ <;> simp [brought, *]

def inp9 : Input C := .verified (.richStatus (status 9 nodes9))

theorem others : ∀ i, (i = inp9 ∨ i ∈ between.map Prod.snd) → ∀ qc', BringsQc i qc' → SameSlot qc' c9 → qc' = c9 := by
  have h : (inp9 :: between.map Prod.snd).all (fun i => (brought i).all fun q =>
    decide (q = c9 ∨ ¬ (q.height = c9.height ∧ q.round = c9.round ∧ q.voteType = c9.voteType))) = true := by
    decide +kernel
  intro i hi qc' hb hs
  have h1 := List.all_eq_true.1 h i (by simpa using hi)
  have h2 := of_decide_eq_true (List.all_eq_true.1 h1 qc' (brought_sound hb))
  exact h2.resolve_right (fun h3 => h3 hs)

/-- The hypotheses of the three theorems hold here: messages for height 9 arrive at height 7, others (also for the
same slots) follow, the node moves to height 8 and then to height 9 with another validator list. -/
example : .spawnVerify (.signedVote v9) (Authority.update nodes9) ∈
    effects env inp9 (at8 (.verified (.signedVote v9))) := by
  have h := C64_vote_partial env env st0 (at8 (.verified (.signedVote v9))) v9 between
    inp9 (by unfold NoWrap; decide +kernel) (by decide +kernel)
    (by unfold Ahead; decide +kernel) (by decide +kernel) (fun qc h => by cases h) (by decide +kernel)
    (between_ok _ (by decide +kernel)) between_alive (by simp [inp9]) (reachesB_sound (by decide +kernel))
  rwa [show (next env inp9 (at8 (.verified (.signedVote v9)))).authority = Authority.update nodes9 by
    decide +kernel] at h

example : .spawnVerify (.signedProposal p9) (Authority.update nodes9) ∈
    effects env inp9 (at8 (.verified (.signedProposal p9))) := by
  have h := C64_proposal_partial env env st0 (at8 (.verified (.signedProposal p9))) p9 between
    inp9 (by unfold NoWrap; decide +kernel) (by decide +kernel)
    (by unfold Ahead; decide +kernel) (by decide +kernel) (by decide +kernel) (fun qc h => by cases h)
    (between_ok _ (by decide +kernel)) between_alive (by simp [inp9]) (reachesB_sound (by decide +kernel))
  rwa [show (next env inp9 (at8 (.verified (.signedProposal p9)))).authority = Authority.update nodes9 by
    decide +kernel] at h

example : .spawnVerify (.aggregatedVote c9) (Authority.update nodes9) ∈
    effects env inp9 (at8 (.verified (.aggregatedVote c9))) := by
  have h := C64_certificate_partial env env st0 (at8 (.verified (.aggregatedVote c9))) c9 between
    inp9 (by unfold NoWrap; decide +kernel) (by decide +kernel) (by decide +kernel)
    (between_ok _ (by decide +kernel)) between_alive (by simp [inp9]) others (reachesB_sound (by decide +kernel))
  rwa [show (next env inp9 (at8 (.verified (.aggregatedVote c9)))).authority = Authority.update nodes9 by
    decide +kernel] at h

/-- What a node at `s` verifies on the way to height 8 after `i` and `j`. -/
def verifiedAfter (i j : OverlordMsg C) (l : List Node) : List (OverlordMsg C) :=
  (effects env (.verified (.richStatus (status 8 l))) (next env (.verified j) (next env (.verified i) st0))).filterMap
    fun | .spawnVerify m _ => some m | _ => none

def forgedVote : SignedVote := { vote 3 8 0 .prevote [6] with signature := [0] }
def forgedProposal : SignedProposal C := { prop 2 8 1 [6, 6] [6] with signature := [0] }
def forgedCert : AggregatedVote := { cert [1, 2, 3] 8 0 .prevote [6] with signature := ⟨[0], [0xff]⟩ }
end EarlyDemo

open StDemo EarlyDemo

/-- The full claim is false (1): a message with a bad signature in the name of validator 3, for the next height, is
put in the queue of verified messages without a check, and takes the slot of the genuine vote of validator 3, which
is then never counted: at height 8 only the forged one is verified (and dropped). -/
theorem C64_forged_vote_displaces :
    verifyTask (crypto [1]) (.signedVote forgedVote : OverlordMsg C) (Authority.update nodes) = false ∧
    verifyTask (crypto [1]) (.signedVote (vote 3 8 0 .prevote [5]) : OverlordMsg C) (Authority.update nodes) = true ∧
    effects env (.raw (.signedVote forgedVote)) st0 = [.toVerified (.signedVote forgedVote)] ∧
    verifiedAfter (.signedVote forgedVote) (.signedVote (vote 3 8 0 .prevote [5])) nodes = [.signedVote forgedVote] := by
  decide +kernel

/-- The full claim is false (2): the same with proposals. -/
theorem C64_forged_proposal_displaces :
    verifyTask (crypto [1]) (.signedProposal forgedProposal : OverlordMsg C) (Authority.update nodes) = false ∧
    verifyTask (crypto [1]) (.signedProposal (prop 2 8 1 [5, 5] [5]) : OverlordMsg C) (Authority.update nodes) = true ∧
    effects env (.raw (.signedProposal forgedProposal)) st0 = [.toVerified (.signedProposal forgedProposal)] ∧
    verifiedAfter (.signedProposal forgedProposal) (.signedProposal (prop 2 8 1 [5, 5] [5])) nodes =
      [.signedProposal forgedProposal] := by
  decide +kernel

/-- The full claim is false (3): a forged certificate replaces a genuine one, and makes the node refuse votes. -/
theorem C64_forged_certificate_displaces :
    verifyTask (crypto [1]) (.aggregatedVote forgedCert : OverlordMsg C) (Authority.update nodes) = false ∧
    verifyTask (crypto [1]) (.aggregatedVote (cert [1, 2, 3] 8 0 .prevote [5]) : OverlordMsg C)
      (Authority.update nodes) = true ∧
    effects env (.raw (.aggregatedVote forgedCert)) st0 = [.toVerified (.aggregatedVote forgedCert)] ∧
    verifiedAfter (.aggregatedVote (cert [1, 2, 3] 8 0 .prevote [5])) (.aggregatedVote forgedCert) nodes =
      [.aggregatedVote forgedCert] ∧
    verifiedAfter (.aggregatedVote forgedCert) (.signedVote (vote 3 8 0 .prevote [5])) nodes =
      [.aggregatedVote forgedCert] := by
  decide +kernel

/-- The full claim is false (4): the vote of a validator who joins at height 8 is refused while the node is at
height 7, and is not there at height 8. (At height 8 the same vote is accepted.) -/
theorem C64_newcomer_refused :
    verifyTask (crypto [1]) (.signedVote (vote 5 8 0 .prevote [5]) : OverlordMsg C) (Authority.update nodes9) = true ∧
    (Authority.update nodes9).contains [5] = true ∧
    verifiedAfter (.signedVote (vote 5 8 0 .prevote [5])) (.signedVote (vote 3 8 0 .prevote [5])) nodes9 =
      [.signedVote (vote 3 8 0 .prevote [5])] := by
  decide +kernel

end Overlord
