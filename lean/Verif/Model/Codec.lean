import Verif.Model.Rlp

/-!
# Encoding and decoding of messages

Models `/repo/src/codec.rs`. The two functions of a content type are arbitrary (lib.rs `Codec`); where
the code `unwrap`s the result of encoding a content, the model's encoder returns `none` (a panic).
-/

namespace Overlord

/-- lib.rs:113-119 `Codec` (errors without their text). -/
class ContentCodec (T : Type) where
  encode : T → Option Bytes
  decode : Bytes → Option T

open ContentCodec

/-- `Codec::decode(..).map_err(..)` as used in codec.rs:55-81 `impl Decodable for Proposal`. -/
def decContent {T} [ContentCodec T] (bs : Bytes) : Except DErr T :=
  match decode bs with
  | some x => .ok x
  | none => .error .bad

/-- types.rs:31-38 `impl From<VoteType> for u8` -/
def VoteType.toU8 : VoteType → Nat
  | .prevote => 1
  | .precommit => 2

/-- types.rs:58-68 `impl TryFrom<u8> for VoteType` -/
def VoteType.ofU8 : Nat → Except DErr VoteType
  | 1 => .ok .prevote
  | 2 => .ok .precommit
  | _ => .error .bad

/-- smr_types.rs:78-89 `impl From<u8> for Step`: panics on an unknown step. -/
def Step.ofU8 : Nat → Except DErr Step
  | 0 => .ok .propose
  | 1 => .ok .prevote
  | 2 => .ok .precommit
  | 3 => .ok .brake
  | 4 => .ok .commit
  | _ => .error .panic

/-- codec.rs:109-115 `impl Encodable for AggregatedSignature` -/
def encAggSig (x : AggregatedSignature) : Bytes := encList [encStr x.signature, encStr x.addressBitmap]
/-- codec.rs:117-133 `impl Decodable for AggregatedSignature` -/
def decAggSig (bs : Bytes) : Except DErr AggregatedSignature := do
  match ← listOf 2 bs with
  | [a, b] => return { signature := ← decStr a, addressBitmap := ← decStr b }
  | _ => .error .bad

/-- codec.rs:136-147 `impl Encodable for AggregatedVote` -/
def encAggVote (x : AggregatedVote) : Bytes :=
  encList [encAggSig x.signature, encInt x.voteType.toU8, encInt x.height, encInt x.round,
    encStr x.blockHash, encStr x.leader]
/-- codec.rs:149-175 `impl Decodable for AggregatedVote` -/
def decAggVote (bs : Bytes) : Except DErr AggregatedVote := do
  match ← listOf 6 bs with
  | [a, b, c, d, e, f] =>
    let sig ← decAggSig a
    let tmp ← decInt 1 b
    let ty ← VoteType.ofU8 tmp
    return { signature := sig, voteType := ty, height := ← decInt 8 c, round := ← decInt 8 d,
             blockHash := ← decStr e, leader := ← decStr f }
  | _ => .error .bad

/-- codec.rs:84-90 `impl Encodable for PoLC` -/
def encPoLC (x : PoLC) : Bytes := encList [encInt x.lockRound, encAggVote x.lockVotes]
/-- codec.rs:92-106 `impl Decodable for PoLC` -/
def decPoLC (bs : Bytes) : Except DErr PoLC := do
  match ← listOf 2 bs with
  | [a, b] => return { lockRound := ← decInt 8 a, lockVotes := ← decAggVote b }
  | _ => .error .bad

section
variable {T : Type} [ContentCodec T]

/-- codec.rs:42-53 `impl Encodable for Proposal`; `none`: the content does not encode (`unwrap` panics). -/
def encProposal (x : Proposal T) : Option Bytes :=
  (encode x.content).map fun content =>
    encList [encInt x.height, encInt x.round, encStr x.blockHash, encOption (x.lock.map encPoLC),
      encStr x.proposer, encStr content]
/-- codec.rs:55-81 `impl Decodable for Proposal` -/
def decProposal (bs : Bytes) : Except DErr (Proposal T) := do
  match ← listOf 6 bs with
  | [a, b, c, d, e, f] =>
    let height ← decInt 8 a
    let round ← decInt 8 b
    let blockHash ← decStr c
    let lock ← decOption decPoLC d
    let proposer ← decStr e
    let tmp ← decStr f
    let content ← decContent tmp
    return { height, round, content, blockHash, lock, proposer }
  | _ => .error .bad

/-- codec.rs:16-22 `impl Encodable for SignedProposal` -/
def encSignedProposal (x : SignedProposal T) : Option Bytes :=
  (encProposal x.proposal).map fun p => encList [encStr x.signature, p]
/-- codec.rs:24-39 `impl Decodable for SignedProposal` -/
def decSignedProposal (bs : Bytes) : Except DErr (SignedProposal T) := do
  match ← listOf 2 bs with
  | [a, b] => return { signature := ← decStr a, proposal := ← decProposal b }
  | _ => .error .bad
end

/-- codec.rs:208-217 `impl Encodable for Vote` -/
def encVote (x : Vote) : Bytes :=
  encList [encInt x.height, encInt x.round, encInt x.voteType.toU8, encStr x.blockHash]
/-- codec.rs:219-240 `impl Decodable for Vote` -/
def decVote (bs : Bytes) : Except DErr Vote := do
  match ← listOf 4 bs with
  | [a, b, c, d] =>
    let height ← decInt 8 a
    let round ← decInt 8 b
    let tmp ← decInt 1 c
    let ty ← VoteType.ofU8 tmp
    return { height := height, round := round, voteType := ty, blockHash := ← decStr d }
  | _ => .error .bad

/-- codec.rs:178-185 `impl Encodable for SignedVote` -/
def encSignedVote (x : SignedVote) : Bytes :=
  encList [encStr x.signature, encVote x.vote, encStr x.voter]
/-- codec.rs:187-205 `impl Decodable for SignedVote` -/
def decSignedVote (bs : Bytes) : Except DErr SignedVote := do
  match ← listOf 3 bs with
  | [a, b, c] => return { signature := ← decStr a, vote := ← decVote b, voter := ← decStr c }
  | _ => .error .bad

/-- codec.rs:274-282 `impl Encodable for Proof` -/
def encProof (x : Proof) : Bytes :=
  encList [encInt x.height, encInt x.round, encStr x.blockHash, encAggSig x.signature]
/-- codec.rs:284-303 `impl Decodable for Proof` -/
def decProof (bs : Bytes) : Except DErr Proof := do
  match ← listOf 4 bs with
  | [a, b, c, d] =>
    return { height := ← decInt 8 a, round := ← decInt 8 b, blockHash := ← decStr c,
             signature := ← decAggSig d }
  | _ => .error .bad

section
variable {T : Type} [ContentCodec T]

/-- codec.rs:243-251 `impl Encodable for Commit` -/
def encCommit (x : Commit T) : Option Bytes :=
  (encode x.content).map fun content => encList [encInt x.height, encProof x.proof, encStr content]
/-- codec.rs:253-271 `impl Decodable for Commit` -/
def decCommit (bs : Bytes) : Except DErr (Commit T) := do
  match ← listOf 3 bs with
  | [a, b, c] =>
    let height ← decInt 8 a
    let proof ← decProof b
    let tmp ← decStr c
    let content ← decContent tmp
    return { height, content, proof }
  | _ => .error .bad
end

/-- codec.rs:305-313 `impl Encodable for DurationConfig` -/
def encDuration (x : DurationConfig) : Bytes :=
  encList [encInt x.proposeRatio, encInt x.prevoteRatio, encInt x.precommitRatio, encInt x.brakeRatio]
/-- codec.rs:315-333 `impl Decodable for DurationConfig` -/
def decDuration (bs : Bytes) : Except DErr DurationConfig := do
  match ← listOf 4 bs with
  | [a, b, c, d] =>
    return { proposeRatio := ← decInt 8 a, prevoteRatio := ← decInt 8 b,
             precommitRatio := ← decInt 8 c, brakeRatio := ← decInt 8 d }
  | _ => .error .bad

/-- `DurationConfig::default()` (derived: all zero). -/
def DurationConfig.zero : DurationConfig := ⟨0, 0, 0, 0⟩

/-- codec.rs:385-392 `impl Encodable for Node` -/
def encNode (x : Node) : Bytes := encList [encStr x.address, encInt x.proposeWeight, encInt x.voteWeight]
/-- codec.rs:394-411 `impl Decodable for Node` -/
def decNode (bs : Bytes) : Except DErr Node := do
  match ← listOf 3 bs with
  | [a, b, c] =>
    return { address := ← decStr a, proposeWeight := ← decInt 4 b, voteWeight := ← decInt 4 c }
  | _ => .error .bad

/-- codec.rs:336-355 `impl Encodable for Status` -/
def encStatus (x : Status) : Bytes :=
  encList [encInt x.height, encInt (x.interval.getD 0), encDuration (x.timerConfig.getD .zero),
    encList (x.authorityList.map encNode)]
/-- codec.rs:357-382 `impl Decodable for Status` -/
def decStatus (bs : Bytes) : Except DErr Status := do
  match ← listOf 4 bs with
  | [a, b, c, d] =>
    let height ← decInt 8 a
    let tmp ← decInt 8 b
    let interval := if tmp = 0 then none else some tmp
    let cfg ← decDuration c
    let timerConfig := if cfg = .zero then none else some cfg
    let authorityList ← decVec decNode d
    return { height, interval, timerConfig, authorityList }
  | _ => .error .bad

/-- codec.rs:577-590 `impl Encodable for AggregatedChoke` -/
def encAggChoke (x : AggregatedChoke) : Bytes :=
  encList [encInt x.height, encInt x.round, encStr x.signature, encList (x.voters.map encStr)]
/-- codec.rs:592-612 `impl Decodable for AggregatedChoke` -/
def decAggChoke (bs : Bytes) : Except DErr AggregatedChoke := do
  match ← listOf 4 bs with
  | [a, b, c, d] =>
    return { height := ← decInt 8 a, round := ← decInt 8 b, signature := ← decStr c,
             voters := ← decVec decStr d }
  | _ => .error .bad

/-- codec.rs:413-428 `impl Encodable for UpdateFrom` -/
def encUpdateFrom : UpdateFrom → Bytes
  | .prevoteQC qc => encList [encInt 0, encAggVote qc]
  | .precommitQC qc => encList [encInt 1, encAggVote qc]
  | .chokeQC qc => encList [encInt 2, encAggChoke qc]
/-- codec.rs:430-455 `impl Decodable for UpdateFrom`: `unreachable!()` on an unknown tag. -/
def decUpdateFrom (bs : Bytes) : Except DErr UpdateFrom := do
  match ← listOf 2 bs with
  | [a, b] =>
    let tmp ← decInt 1 a
    match tmp with
    | 0 => return .prevoteQC (← decAggVote b)
    | 1 => return .precommitQC (← decAggVote b)
    | 2 => return .chokeQC (← decAggChoke b)
    | _ => .error .panic
  | _ => .error .bad

/-- codec.rs:521-528 `impl Encodable for Choke` -/
def encChoke (x : Choke) : Bytes := encList [encInt x.height, encInt x.round, encUpdateFrom x.from]
/-- codec.rs:530-546 `impl Decodable for Choke` -/
def decChoke (bs : Bytes) : Except DErr Choke := do
  match ← listOf 3 bs with
  | [a, b, c] => return { height := ← decInt 8 a, round := ← decInt 8 b, «from» := ← decUpdateFrom c }
  | _ => .error .bad

/-- codec.rs:548-555 `impl Encodable for SignedChoke` -/
def encSignedChoke (x : SignedChoke) : Bytes :=
  encList [encStr x.signature, encChoke x.choke, encStr x.address]
/-- codec.rs:557-575 `impl Decodable for SignedChoke` -/
def decSignedChoke (bs : Bytes) : Except DErr SignedChoke := do
  match ← listOf 3 bs with
  | [a, b, c] => return { signature := ← decStr a, choke := ← decChoke b, address := ← decStr c }
  | _ => .error .bad

/-- codec.rs:614-618 `impl Encodable for HashChoke` (there is no decoder). -/
def encHashChoke (x : HashChoke) : Bytes := encList [encInt x.height, encInt x.round]

section
variable {T : Type} [ContentCodec T]

/-- codec.rs:457-465 `impl Encodable for WalLock` -/
def encWalLock (x : WalLock T) : Option Bytes :=
  (encode x.content).map fun content =>
    encList [encInt x.lockRound, encAggVote x.lockVotes, encStr content]
/-- codec.rs:467-485 `impl Decodable for WalLock` -/
def decWalLock (bs : Bytes) : Except DErr (WalLock T) := do
  match ← listOf 3 bs with
  | [a, b, c] =>
    let lockRound ← decInt 8 a
    let lockVotes ← decAggVote b
    let tmp ← decStr c
    let content ← decContent tmp
    return { lockRound, lockVotes, content }
  | _ => .error .bad

/-- The `Option<WalLock>` of a WAL record. -/
def encWalLock? : Option (WalLock T) → Option Bytes
  | none => some (encOption none)
  | some l => (encWalLock l).map fun b => encOption (some b)

/-- codec.rs:487-496 `impl Encodable for WalInfo` -/
def encWalInfo (x : WalInfo T) : Option Bytes :=
  (encWalLock? x.lock).map fun lock =>
    encList [encInt x.height, encInt x.round, encInt x.step.toNat, lock, encUpdateFrom x.from]
/-- codec.rs:498-519 `impl Decodable for WalInfo` -/
def decWalInfo (bs : Bytes) : Except DErr (WalInfo T) := do
  match ← listOf 5 bs with
  | [a, b, c, d, e] =>
    let height ← decInt 8 a
    let round ← decInt 8 b
    let tmp ← decInt 1 c
    let step ← Step.ofU8 tmp
    let lock ← decOption decWalLock d
    let «from» ← decUpdateFrom e
    return { height, round, step, lock, «from» }
  | _ => .error .bad
end

end Overlord
