import Verif.Model.Codec

/-!
# Specification vocabulary for the codec (C22–C25)

Which values exist in the Rust program (`u64` / `u32` fields), and which content codecs are sane.
-/

namespace Overlord.Spec

/-- The message fits in an address space of 64 bits. -/
def Fits (b : Bytes) : Prop := b.length < 2 ^ 64

/-- The content codec gives back what it encoded. -/
def Faithful (T : Type) [ContentCodec T] : Prop :=
  ∀ (x : T) (b : Bytes), ContentCodec.encode x = some b → ContentCodec.decode b = some x

def VoteR (x : Vote) : Prop := x.height < 2 ^ 64 ∧ x.round < 2 ^ 64
def AggVoteR (x : AggregatedVote) : Prop := x.height < 2 ^ 64 ∧ x.round < 2 ^ 64
def PoLCR (x : PoLC) : Prop := x.lockRound < 2 ^ 64 ∧ AggVoteR x.lockVotes
def ProposalR {T} (x : Proposal T) : Prop :=
  x.height < 2 ^ 64 ∧ x.round < 2 ^ 64 ∧ ∀ l, x.lock = some l → PoLCR l
def SignedProposalR {T} (x : SignedProposal T) : Prop := ProposalR x.proposal
def SignedVoteR (x : SignedVote) : Prop := VoteR x.vote
def ProofR (x : Proof) : Prop := x.height < 2 ^ 64 ∧ x.round < 2 ^ 64
def CommitR {T} (x : Commit T) : Prop := x.height < 2 ^ 64 ∧ ProofR x.proof
def DurationR (x : DurationConfig) : Prop :=
  x.proposeRatio < 2 ^ 64 ∧ x.prevoteRatio < 2 ^ 64 ∧ x.precommitRatio < 2 ^ 64 ∧ x.brakeRatio < 2 ^ 64
def NodeR (x : Node) : Prop := x.proposeWeight < 2 ^ 32 ∧ x.voteWeight < 2 ^ 32
def StatusR (x : Status) : Prop :=
  x.height < 2 ^ 64 ∧ (∀ i, x.interval = some i → i < 2 ^ 64) ∧
  (∀ c, x.timerConfig = some c → DurationR c) ∧ ∀ n ∈ x.authorityList, NodeR n
def AggChokeR (x : AggregatedChoke) : Prop := x.height < 2 ^ 64 ∧ x.round < 2 ^ 64
def UpdateFromR : UpdateFrom → Prop
  | .prevoteQC q => AggVoteR q
  | .precommitQC q => AggVoteR q
  | .chokeQC q => AggChokeR q
def ChokeR (x : Choke) : Prop := x.height < 2 ^ 64 ∧ x.round < 2 ^ 64 ∧ UpdateFromR x.from
def SignedChokeR (x : SignedChoke) : Prop := ChokeR x.choke
def HashChokeR (x : HashChoke) : Prop := x.height < 2 ^ 64 ∧ x.round < 2 ^ 64
def WalLockR {T} (x : WalLock T) : Prop := x.lockRound < 2 ^ 64 ∧ AggVoteR x.lockVotes
def WalInfoR {T} (x : WalInfo T) : Prop :=
  x.height < 2 ^ 64 ∧ x.round < 2 ^ 64 ∧ (∀ l, x.lock = some l → WalLockR l) ∧ UpdateFromR x.from

end Overlord.Spec
