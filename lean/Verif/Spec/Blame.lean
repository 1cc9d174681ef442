import Verif.Spec.Signed
import Verif.Spec.Light
import Verif.Spec.Single

/-!
# Specification vocabulary for C71: who is to blame for conflicting messages

Evidence is what an outsider can check: signatures. `V` is the verification of the signature scheme.
-/

namespace Overlord.Spec

/-- The signature is one of `a` on the vote. -/
def VoteSignedBy (V : Crypto) (a : Address) (s : Signature) (v : Vote) : Prop :=
  V.verifySig s (V.hash (encVote v)) a = true

/-- The aggregated signature names `a` as one of the signers. -/
def Names (l : List Node) (s : AggregatedSignature) (a : Address) : Prop :=
  ∃ voters, extractVoters l s.addressBitmap = .ok voters ∧ a ∈ voters

/-- Two certificates that an outsider accepts, for different blocks (or for a block and for none) and for the same height, round and type of vote. -/
structure Conflict (V : Crypto) (lists : Nat → List Node) (c d : AggregatedVote) : Prop where
  left : Convincing V lists c
  right : Convincing V lists d
  height : c.height = d.height
  round : c.round = d.round
  type : c.voteType = d.voteType
  block : c.blockHash ≠ d.blockHash
  inRange : VoteR c.toVote

variable {T : Type}

section
variable [ContentCodec T] [DecidableEq T]

/-- Two signed proposals in one name for the same height and round that differ. -/
structure TwoProposals (V : Crypto) (s t : Signature) (p q : Proposal T) : Prop where
  left : ∃ b, encProposal p = some b ∧ V.verifySig s (V.hash b) p.proposer = true
  right : ∃ b, encProposal q = some b ∧ V.verifySig t (V.hash b) q.proposer = true
  name : p.proposer = q.proposer
  height : p.height = q.height
  round : p.round = q.round
  differ : p ≠ q
  inRange : ProposalR p ∧ ProposalR q

/-- Nobody can sign a proposal in the name of a correct node: `V` accepts a signature on a proposal in its name only if the node has sent this
proposal. -/
def UnforgeableProposals (correct : Address → Bool) (N : NetSys T) (V : Crypto) : Prop :=
  ∀ s (p : Proposal T) b, ProposalR p → encProposal p = some b → correct p.proposer = true → V.verifySig s (V.hash b) p.proposer = true →
    p ∈ proposalsOf (N.nodes p.proposer).log

/-- The steps of correct nodes are as C31 needs it. Nothing is asked of the messages, of the other nodes, or of their weight. -/
def CalmNet (correct : Address → Bool) (as : List (Address × NAct T)) : Prop :=
  AlongNet (fun N a x => correct a = true → InSync (N.nodes a) x ∧ RoundSmall (N.nodes a) x ∧ StartOk a (N.nodes a) x) NetSys.new as

end
end Overlord.Spec
