import Verif.Model.State
import Verif.Spec.Authority

/-!
# Specification vocabulary for the State module

Observations of the effects of a handled input, and of what was handled before.
-/

namespace Overlord.Spec
variable {T : Type}

/-- What handling one input does outside the node, oldest first. -/
def effects [ContentCodec T] [DecidableEq T] (e : Env T) (i : Input T) (s : State T) : List (Effect T) :=
  (runArm i e ⟨s, []⟩).2.log

/-- The node after one input. -/
def next [ContentCodec T] [DecidableEq T] (e : Env T) (i : Input T) (s : State T) : State T :=
  (runArm i e ⟨s, []⟩).2.st

/-- The vote that leaves the node by an effect: sent to the relayer, broadcast, or put in the own pool. -/
def releasedVote : Effect T → Option SignedVote
  | .transmit _ (.signedVote sv) => some sv
  | .broadcast (.signedVote sv) => some sv
  | .ownVote sv => some sv
  | _ => none

/-- The choke that leaves the node by an effect. -/
def releasedChoke : Effect T → Option SignedChoke
  | .transmit _ (.signedChoke sc) => some sc
  | .broadcast (.signedChoke sc) => some sc
  | _ => none

/-- The position recorded by a successful write to the WAL. -/
def recorded : Effect T → Option (Nat × Nat × Step)
  | .saveWal w true => some (w.height, w.round, w.step)
  | _ => none

/-- The effect is visible outside the node, except for reading: something is sent, logged, committed or
reported, or a trigger starts a vote. -/
def Outward : Effect T → Prop
  | .spawnVerify .. => False
  | .toVerified _ => False
  | .getBlock .. => False
  | _ => True

/-- A proposal given to the node as a verified message. -/
def proposalOf : Input T → Option (SignedProposal T)
  | .verified (.signedProposal sp) => some sp
  | _ => none

/-- A message of another height and round than those a node at height `h` and round `r` keeps. -/
def OutsideWindow (h r height round : Nat) : Prop :=
  height < h ∨ (height = h ∧ round < r) ∨ h + 5 < height ∨ (height = h ∧ r + 10 < round) ∨
  (h < height ∧ 10 < round)

/-- The position is far from the end of the `u64` range. -/
def NoWrap (s : State T) : Prop := s.height + 5 < 2 ^ 64 ∧ s.round + 10 < 2 ^ 64

/-- The vote of validator `a` the node counts for a height, round and type. -/
def keptVote (s : State T) (height round : Nat) (ty : VoteType) (a : Address) : Option SignedVote :=
  (s.votes.pool height round ty).bind fun vs => vs.byAddress.get? a

/-- Who reports: the reported view changes of a handled input. -/
def reports (l : List (Effect T)) : List (Nat × Nat × ViewChangeReason) :=
  l.filterMap fun
    | .reportViewChange h r reason => some (h, r, reason)
    | _ => none

/-- The triggers sent to the voting state machine. -/
def triggers (l : List (Effect T)) : List SMRTrigger :=
  l.filterMap fun
    | .trigger t => some t
    | _ => none

/-- Where a certificate a node holds comes from: it was received as a verified message or inside a choke,
it was restored from the WAL, or the node built and broadcast it. `ins` are the inputs and `tr` the effects
so far. -/
def CertificateFrom [ContentCodec T] (ins : List (Env T × Input T)) (tr : List (Effect T))
    (qc : AggregatedVote) : Prop :=
  (∃ e, (e, .verified (.aggregatedVote qc)) ∈ ins) ∨
  (∃ e sc, (e, .verified (.signedChoke sc)) ∈ ins ∧
    (sc.choke.from = .prevoteQC qc ∨ sc.choke.from = .precommitQC qc)) ∨
  (∃ e b w l, (e, .start) ∈ ins ∧ e.walLoad = some (some b) ∧ decWalInfo b = .ok (w : WalInfo T) ∧
    w.lock = some l ∧ l.lockVotes = qc) ∨
  .broadcast (.aggregatedVote qc) ∈ tr

/-- Where the content a node holds for a hash comes from: a proposal given to it as a verified message, its
own `get_block`, or the WAL. -/
def ContentFrom [ContentCodec T] (ins : List (Env T × Input T)) (tr : List (Effect T)) (hash : Hash)
    (content : T) : Prop :=
  (∃ e sp, (e, .verified (.signedProposal sp)) ∈ ins ∧ sp.proposal.blockHash = hash ∧
    sp.proposal.content = content) ∨
  (∃ h, .getBlock h (some (content, hash)) ∈ tr) ∨
  (∃ e b w l, (e, .start) ∈ ins ∧ e.walLoad = some (some b) ∧ decWalInfo b = .ok (w : WalInfo T) ∧
    w.lock = some l ∧ l.lockVotes.blockHash = hash ∧ l.content = content)

/-- Why a node in state `s` leaves its round when the cause of the move is `f`: a certificate of another round, or,
for its own round, what it was missing (as leader: votes). -/
def LeftBecause (s : State T) (f : FromWhere) : ViewChangeReason → Prop
  | .updateFromHigherPrevoteQC old new => f = .prevoteQC new ∧ old = s.round ∧ new ≠ s.round
  | .updateFromHigherPrecommitQC old new => f = .precommitQC new ∧ old = s.round ∧ new ≠ s.round
  | .updateFromHigherChokeQC old new => f = .chokeQC new ∧ old = s.round ∧ new ≠ s.round
  | .leaderReceivedVoteBelowThreshold ty => f.getRound = s.round ∧ s.isLeader = true ∧
      (ty = .precommit ↔ ∃ qc, s.votes.getQcById s.height s.round .prevote = .ok qc ∧ qc.blockHash ≠ [])
  | .noProposalFromNetwork => f.getRound = s.round ∧ s.isLeader = false ∧
      ∀ sp, s.proposals.get s.height s.round ≠ .ok sp
  | .checkBlockNotPass => f.getRound = s.round ∧ s.isLeader = false ∧
      ∃ sp, s.proposals.get s.height s.round = .ok sp ∧ s.isFullTransaction.get? sp.proposal.blockHash = none
  | .noPrevoteQCFromNetwork => f.getRound = s.round ∧ s.isLeader = false ∧
      (∃ sp b, s.proposals.get s.height s.round = .ok sp ∧ s.isFullTransaction.get? sp.proposal.blockHash = some b) ∧
      ∀ qc, s.votes.getQcById s.height s.round .prevote ≠ .ok qc
  | .noPrecommitQCFromNetwork => f.getRound = s.round ∧ s.isLeader = false ∧
      (∃ sp b, s.proposals.get s.height s.round = .ok sp ∧ s.isFullTransaction.get? sp.proposal.blockHash = some b) ∧
      (∃ qc, s.votes.getQcById s.height s.round .prevote = .ok qc) ∧
      ∀ qc, s.votes.getQcById s.height s.round .precommit ≠ .ok qc
  | .others => f.getRound = s.round ∧ s.isLeader = false ∧
      (∃ sp b, s.proposals.get s.height s.round = .ok sp ∧ s.isFullTransaction.get? sp.proposal.blockHash = some b) ∧
      (∃ qc, s.votes.getQcById s.height s.round .prevote = .ok qc) ∧
      ∃ qc, s.votes.getQcById s.height s.round .precommit = .ok qc

/-- The chokes of a round a node holds, at most one per sender. -/
def heldChokes (s : State T) (round : Nat) : List SignedChoke := (s.chokes.getChokes .same round).getD []

/-- More than two thirds of the number of validators have sent a choke of the round. -/
def HoldsChokeQuorum (s : State T) (round : Nat) : Prop := 2 * s.authority.len < 3 * (heldChokes s round).length

/-- The highest round, not below the node's, with that many chokes. -/
def TopChokeRound (s : State T) (round : Nat) : Prop :=
  s.round ≤ round ∧ HoldsChokeQuorum s round ∧ ∀ r, HoldsChokeQuorum s r → r ≤ round

/-- The height an effect is about: votes, chokes and proposals sent, commits. -/
def aboutHeight : Effect T → Option Nat
  | .broadcast (.signedProposal sp) => some sp.proposal.height
  | .commitCall k _ _ => some k
  | x => match releasedVote x, releasedChoke x with
    | some sv, _ => some sv.vote.height
    | none, some sc => some sc.choke.height
    | none, none => none

/-- The calls of `commit`: the height and the answer. -/
def commitCalls (l : List (Effect T)) : List (Nat × Option Status) :=
  l.filterMap fun
    | .commitCall k _ r => some (k, r)
    | _ => none

/-- Whenever `commit` answers with a status, the leader selection for its list ends (with a leader, or by
panicking on an empty list). Always so in the default mode; in the random mode the generator has to produce a
digit below its bound. -/
def LeaderFound (e : Env T) : Prop :=
  ∀ k c st x, e.commit k c = some st →
    (Authority.update st.authorityList).getProposer e.mode st.height 0 = .error x → x = .panic

end Overlord.Spec
