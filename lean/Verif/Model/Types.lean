/-!
# Data types of overlord

Models `/repo/src/types.rs`, `/repo/src/smr/smr_types.rs`, `/repo/src/wal/wal_type.rs` and
`DurationConfig` of `/repo/src/lib.rs`.

Simplifications valid for the whole file:
* `bytes::Bytes` is `List UInt8`.
* `u64` / `u32` fields are `Nat`; the ranges appear as explicit predicates where they matter
  (wire encodings) and wrap-around is explicit where the code does arithmetic.
* `creep::Context` (tracing) is dropped everywhere.
* the block content type `T : Codec` is a type parameter.
-/

namespace Overlord

/-- `bytes::Bytes`. -/
abbrev Bytes := List UInt8
/-- types.rs:13 `Address` -/
abbrev Address := Bytes
/-- types.rs:15 `Hash` -/
abbrev Hash := Bytes
/-- types.rs:17 `Signature` -/
abbrev Signature := Bytes

/-- lib.rs:52 `INIT_HEIGHT` -/
def INIT_HEIGHT : Nat := 0
/-- lib.rs:53 `INIT_ROUND` -/
def INIT_ROUND : Nat := 0

/-- The number of values of a `u64`. -/
def U64 : Nat := 2 ^ 64
/-- The number of values of a `u32`. -/
def U32 : Nat := 2 ^ 32
/-- `u64::max_value()` (state_machine.rs:183, 488, process.rs:1779). -/
def U64MAX : Nat := 2 ^ 64 - 1
/-- `x + 1` on `u64` (release profile: wraps). -/
def inc64 (n : Nat) : Nat := (n + 1) % U64

/-- types.rs:22-29 `VoteType` -/
inductive VoteType where
  | prevote
  | precommit
deriving DecidableEq, Repr, Inhabited

/-- smr_types.rs:11-58 `Step`. The derived `Ord` is declaration order. -/
inductive Step where
  | propose
  | prevote
  | precommit
  | brake
  | commit
deriving DecidableEq, Repr, Inhabited

/-- smr_types.rs:66-76 `impl From<Step> for u8`; also the derived order (smr_types.rs:10). -/
def Step.toNat : Step → Nat
  | .propose => 0
  | .prevote => 1
  | .precommit => 2
  | .brake => 3
  | .commit => 4

/-- types.rs:49-56 `impl From<VoteType> for Step`. -/
def VoteType.toStep : VoteType → Step
  | .prevote => .prevote
  | .precommit => .precommit

/-- types.rs:251-258 `AggregatedSignature` -/
structure AggregatedSignature where
  signature : Signature
  addressBitmap : Bytes
deriving DecidableEq, Repr, Inhabited

/-- types.rs:311-320 `Vote` -/
structure Vote where
  height : Nat
  round : Nat
  voteType : VoteType
  blockHash : Hash
deriving DecidableEq, Repr, Inhabited

/-- types.rs:264-279 `AggregatedVote` -/
structure AggregatedVote where
  signature : AggregatedSignature
  voteType : VoteType
  height : Nat
  round : Nat
  blockHash : Hash
  leader : Address
deriving DecidableEq, Repr, Inhabited

/-- types.rs:298-305 `AggregatedVote::to_vote`. -/
def AggregatedVote.toVote (q : AggregatedVote) : Vote :=
  { height := q.height, round := q.round, voteType := q.voteType, blockHash := q.blockHash }

/-- types.rs:196-201 `PoLC` -/
structure PoLC where
  lockRound : Nat
  lockVotes : AggregatedVote
deriving DecidableEq, Repr, Inhabited

/-- types.rs:179-192 `Proposal` -/
structure Proposal (T : Type) where
  height : Nat
  round : Nat
  content : T
  blockHash : Hash
  lock : Option PoLC
  proposer : Address
deriving DecidableEq, Repr

/-- types.rs:169-174 `SignedProposal` -/
structure SignedProposal (T : Type) where
  signature : Signature
  proposal : Proposal T
deriving DecidableEq, Repr

/-- types.rs:206-213 `SignedVote` -/
structure SignedVote where
  signature : Signature
  vote : Vote
  voter : Address
deriving DecidableEq, Repr, Inhabited

/-- types.rs:336-345 `Proof` -/
structure Proof where
  height : Nat
  round : Nat
  blockHash : Hash
  signature : AggregatedSignature
deriving DecidableEq, Repr, Inhabited

/-- types.rs:325-332 `Commit` -/
structure Commit (T : Type) where
  height : Nat
  content : T
  proof : Proof
deriving DecidableEq, Repr

/-- lib.rs:165-174 `DurationConfig` -/
structure DurationConfig where
  proposeRatio : Nat
  prevoteRatio : Nat
  precommitRatio : Nat
  brakeRatio : Nat
deriving DecidableEq, Repr, Inhabited

/-- types.rs:381-390 `Node` -/
structure Node where
  address : Address
  proposeWeight : Nat
  voteWeight : Nat
deriving DecidableEq, Repr, Inhabited

/-- types.rs:350-359 `Status` -/
structure Status where
  height : Nat
  interval : Option Nat
  timerConfig : Option DurationConfig
  authorityList : List Node
deriving DecidableEq, Repr, Inhabited

/-- types.rs:372-376 `is_consensus_node`. -/
def Status.isConsensusNode (s : Status) (a : Address) : Bool :=
  s.authorityList.any (fun n => n.address == a)

/-- types.rs:441-452 `AggregatedChoke` -/
structure AggregatedChoke where
  height : Nat
  round : Nat
  signature : Signature
  voters : List Address
deriving DecidableEq, Repr, Inhabited

/-- types.rs:117-124 `UpdateFrom` -/
inductive UpdateFrom where
  | prevoteQC (qc : AggregatedVote)
  | precommitQC (qc : AggregatedVote)
  | chokeQC (qc : AggregatedChoke)
deriving DecidableEq, Repr

/-- types.rs:481-488 `Choke` -/
structure Choke where
  height : Nat
  round : Nat
  «from» : UpdateFrom
deriving DecidableEq, Repr

/-- types.rs:470-477 `SignedChoke` -/
structure SignedChoke where
  signature : Signature
  choke : Choke
  address : Address
deriving DecidableEq, Repr

/-- types.rs:500-503 `HashChoke` -/
structure HashChoke where
  height : Nat
  round : Nat
deriving DecidableEq, Repr, Inhabited

/-- types.rs:491-496 `Choke::to_hash`. -/
def Choke.toHash (c : Choke) : HashChoke := { height := c.height, round := c.round }
/-- types.rs:460-465 `AggregatedChoke::to_hash`. -/
def AggregatedChoke.toHash (c : AggregatedChoke) : HashChoke :=
  { height := c.height, round := c.round }

/-- types.rs:73-96 `OverlordMsg` (the `cfg(test)` variant `Commit` is not part of the library). -/
inductive OverlordMsg (T : Type) where
  | signedProposal (sp : SignedProposal T)
  | signedVote (sv : SignedVote)
  | aggregatedVote (av : AggregatedVote)
  | richStatus (s : Status)
  | signedChoke (sc : SignedChoke)
  | stop
deriving DecidableEq, Repr

/-- types.rs:99-101 `is_rich_status` -/
def OverlordMsg.isRichStatus {T} : OverlordMsg T → Bool
  | .richStatus _ => true
  | _ => false

/-- types.rs:103-112 `get_height`; `none` is the `unreachable!()` panic. -/
def OverlordMsg.getHeight? {T} : OverlordMsg T → Option Nat
  | .signedProposal sp => some sp.proposal.height
  | .signedVote sv => some sv.vote.height
  | .aggregatedVote av => some av.height
  | .richStatus s => some s.height
  | .signedChoke sc => some sc.choke.height
  | .stop => none

/-- types.rs:128-164 `ViewChangeReason` -/
inductive ViewChangeReason where
  | noProposalFromNetwork
  | noPrevoteQCFromNetwork
  | noPrecommitQCFromNetwork
  | checkBlockNotPass
  | updateFromHigherPrevoteQC (old new : Nat)
  | updateFromHigherPrecommitQC (old new : Nat)
  | updateFromHigherChokeQC (old new : Nat)
  | leaderReceivedVoteBelowThreshold (t : VoteType)
  | others
deriving DecidableEq, Repr

/-- types.rs:428-437 `VerifyResp` -/
structure VerifyResp where
  height : Nat
  round : Nat
  blockHash : Hash
  isPass : Bool
deriving DecidableEq, Repr

/-- smr_types.rs:315-320 `Lock` -/
structure Lock where
  round : Nat
  hash : Hash
deriving DecidableEq, Repr, Inhabited

/-- wal_type.rs:58-63 `SMRBase` -/
structure SMRBase where
  height : Nat
  round : Nat
  step : Step
  polc : Option Lock
deriving DecidableEq, Repr

/-- wal_type.rs:42-46 `WalLock` -/
structure WalLock (T : Type) where
  lockRound : Nat
  lockVotes : AggregatedVote
  content : T
deriving DecidableEq, Repr

/-- wal_type.rs:15-26 `WalInfo` -/
structure WalInfo (T : Type) where
  height : Nat
  round : Nat
  step : Step
  lock : Option (WalLock T)
  «from» : UpdateFrom
deriving DecidableEq, Repr

/-- wal_type.rs:49-54 `to_lock`. -/
def WalLock.toLock {T} (l : WalLock T) : Lock :=
  { round := l.lockRound, hash := l.lockVotes.blockHash }

/-- wal_type.rs:30-37 `into_smr_base`. -/
def WalInfo.intoSmrBase {T} (w : WalInfo T) : SMRBase :=
  { height := w.height, round := w.round, step := w.step, polc := w.lock.map WalLock.toLock }

/-- smr_types.rs:93-100 `FromWhere` -/
inductive FromWhere where
  | prevoteQC (round : Nat)
  | precommitQC (round : Nat)
  | chokeQC (round : Nat)
deriving DecidableEq, Repr

/-- smr_types.rs:103-109 `get_round` -/
def FromWhere.getRound : FromWhere → Nat
  | .prevoteQC r => r
  | .precommitQC r => r
  | .chokeQC r => r

/-- smr_types.rs:111-123 `to_reason` -/
def FromWhere.toReason (oldRound : Nat) : FromWhere → ViewChangeReason
  | .prevoteQC r => .updateFromHigherPrevoteQC oldRound r
  | .precommitQC r => .updateFromHigherPrecommitQC oldRound r
  | .chokeQC r => .updateFromHigherChokeQC oldRound r

/-- smr_types.rs:324-331 `SMRStatus` -/
structure SMRStatus where
  height : Nat
  newInterval : Option Nat
  newConfig : Option DurationConfig
deriving DecidableEq, Repr

/-- types.rs:361-369 `impl From<Status> for SMRStatus`. -/
def Status.toSMR (s : Status) : SMRStatus :=
  { height := s.height, newInterval := s.interval, newConfig := s.timerConfig }

/-- smr_types.rs:130-209 `SMREvent` -/
inductive SMREvent where
  | newRoundInfo (height round : Nat) (lockRound : Option Nat) (lockProposal : Option Hash)
      (fromWhere : FromWhere) (newInterval : Option Nat) (newConfig : Option DurationConfig)
  | prevoteVote (height round : Nat) (blockHash : Hash) (lockRound : Option Nat)
  | precommitVote (height round : Nat) (blockHash : Hash) (lockRound : Option Nat)
  | commit (hash : Hash)
  | brake (height round : Nat) (lockRound : Option Nat)
  | stop
deriving DecidableEq, Repr

/-- smr_types.rs:213-238 `TriggerType` -/
inductive TriggerType where
  | proposal
  | prevoteQC
  | precommitQC
  | newHeight (s : SMRStatus)
  | walInfo
  | brakeTimeout
  | continueRound
  | stop
deriving DecidableEq, Repr

/-- smr_types.rs:242-249 `TriggerSource` -/
inductive TriggerSource where
  | state
  | timer
deriving DecidableEq, Repr

/-- smr_types.rs:295-311 `SMRTrigger` -/
structure SMRTrigger where
  triggerType : TriggerType
  source : TriggerSource
  hash : Hash
  lockRound : Option Nat
  round : Nat
  height : Nat
  walInfo : Option SMRBase
deriving DecidableEq, Repr

/-- types.rs:40-47 `impl From<VoteType> for TriggerType`. -/
def VoteType.toTrigger : VoteType → TriggerType
  | .prevote => .prevoteQC
  | .precommit => .precommitQC

/-- error.rs:8-83, with the message strings dropped, plus `panic` for every way the modelled code
can panic (`panic!`, `unwrap`, `expect`, `assert!`, `unreachable!`, indexing, division by zero). -/
inductive Err where
  | invalidAddress
  | proposalErr
  | brakeErr
  | correctnessErr
  | timerErr
  | multiProposal (height round : Nat)
  | storageErr
  | saveWalErr
  | loadWalErr
  | cryptoErr
  | other
  | panic
deriving DecidableEq, Repr

end Overlord
