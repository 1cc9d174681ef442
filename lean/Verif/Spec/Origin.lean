import Verif.Spec.Net
import Verif.Spec.Node
import Verif.Spec.Signed

/-!
# Specification vocabulary for C59: where committed blocks come from
-/

namespace Overlord.Spec

/-- `p` is the leader of round `r` of height `k`, by the validator list of that height (see C11, C15, C16 for the election). -/
def LeaderOf (mode : LeaderMode) (lists : Nat → List Node) (k r : Nat) (p : Address) : Prop :=
  (Authority.update (lists k)).getProposer mode k r = .ok p

variable {T : Type}

/-- Nodes elect leaders in the same way. -/
def SameMode (mode : LeaderMode) : NAct T → Prop
  | .arm _ e _ => e.mode = mode
  | .start _ e _ => e.mode = mode
  | _ => True

/-- A status carries the validator list of its height. -/
def StatusLists (lists : Nat → List Node) (n : NodeSys T) : NAct T → Prop
  | .arm .verified _ _ => ∀ st q, n.verifiedQ = .richStatus st :: q → st.authorityList = lists st.height
  | _ => True

/-- If a validator takes up a proposal of its height in the name of a correct node, that node has broadcast this proposal: nobody can
sign for a correct node. -/
def GenuineProposal (correct : Address → Bool) (N : NetSys T) (n : NodeSys T) : NAct T → Prop
  | .arm .verified _ _ => ∀ sp q, n.verifiedQ = .signedProposal sp :: q → n.st.consensusPower = true → sp.proposal.height = n.st.height →
      correct sp.proposal.proposer = true →
      ∃ sp', sp'.proposal = sp.proposal ∧ .broadcast (.signedProposal sp') ∈ (N.nodes sp.proposal.proposer).log
  | _ => True

section
variable [ContentCodec T] [DecidableEq T]

/-- What is asked of a step of a correct node. Nothing is asked of certificates, votes, chokes and locks, nor of what faulty nodes send other
than proposals in the name of correct ones. -/
structure OriginStep (mode : LeaderMode) (lists : Nat → List Node) (correct : Address → Bool) (N : NetSys T) (a : Address) (x : NAct T) : Prop where
  start : StartOk a (N.nodes a) x
  answers : AnswersOk (N.nodes a) x
  saves : SavesWork (N.nodes a) x
  given : GivenLists lists a (N.nodes a) x
  status : StatusLists lists (N.nodes a) x
  mode : SameMode mode x
  genuine : GenuineProposal correct N (N.nodes a) x

/-- A schedule in which the steps of correct nodes meet `OriginStep`. -/
def OriginSchedule (mode : LeaderMode) (lists : Nat → List Node) (correct : Address → Bool) (as : List (Address × NAct T)) : Prop :=
  AlongNet (fun N a x => correct a = true → OriginStep mode lists correct N a x) NetSys.new as

/-- In the schedule `as` of node `addr`, the node has taken up the message at height `k`. -/
def TookUp (addr : Address) (as : List (NAct T)) (k : Nat) (m : OverlordMsg T) : Prop :=
  ∃ as1 e cut as2 n q, as = as1 ++ .arm .verified e cut :: as2 ∧ (NodeSys.new addr).run addr as1 = some n ∧
    n.verifiedQ = m :: q ∧ n.st.height = k

/-- The block was made for this height by the application of a correct node, which was asked for it as the leader of a round
of this height. -/
def MadeByCorrect (mode : LeaderMode) (lists : Nat → List Node) (correct : Address → Bool) (N : NetSys T) (k : Nat) (h : Hash) (c : T) : Prop :=
  ∃ a r, correct a = true ∧ LeaderOf mode lists k r a ∧ .getBlock k (some (c, h)) ∈ (N.nodes a).log

/-- The block came in a proposal for this height in the name of a faulty node, the leader of the proposal's round; a correct node has
taken up this proposal at this height. -/
def ProposedByFaulty (mode : LeaderMode) (lists : Nat → List Node) (correct : Address → Bool) (as : List (Address × NAct T)) (k : Nat) (h : Hash)
    (c : T) : Prop :=
  ∃ sp : SignedProposal T, sp.proposal.height = k ∧ sp.proposal.blockHash = h ∧ sp.proposal.content = c ∧
    LeaderOf mode lists k sp.proposal.round sp.proposal.proposer ∧ correct sp.proposal.proposer = false ∧
    ∃ a, correct a = true ∧ TookUp a (stepsOf a as) k (.signedProposal sp)

/-- Nobody can sign a proposal for a correct node: the verification that ends accepts a signature on a proposal in the name of a correct node
only if that node has broadcast this proposal. (`ProposalR`: heights and rounds are `u64` values.) -/
def UnforgedProposals (correct : Address → Bool) (N : NetSys T) : NAct T → Prop
  | .verifyDone c _ => ∀ s (p : Proposal T) b, ProposalR p → encProposal p = some b → correct p.proposer = true →
      c.verifySig s (c.hash b) p.proposer = true → ∃ sp, sp.proposal = p ∧ .broadcast (.signedProposal sp) ∈ (N.nodes p.proposer).log
  | _ => True

/-- Heights and rounds in the proposal that is taken up are `u64` values. -/
def ProposalInRange (n : NodeSys T) : NAct T → Prop
  | .arm .verified _ _ => ∀ sp q, n.verifiedQ = .signedProposal sp :: q → ProposalR sp.proposal
  | _ => True

/-- `OriginStep` with signatures that can not be forged in place of genuine proposals. -/
structure SignedOriginStep (mode : LeaderMode) (lists : Nat → List Node) (correct : Address → Bool) (N : NetSys T) (a : Address) (x : NAct T) : Prop where
  start : StartOk a (N.nodes a) x
  answers : AnswersOk (N.nodes a) x
  saves : SavesWork (N.nodes a) x
  given : GivenLists lists a (N.nodes a) x
  status : StatusLists lists (N.nodes a) x
  mode : SameMode mode x
  unforged : UnforgedProposals correct N x
  inRange : ProposalInRange (N.nodes a) x

end

end Overlord.Spec
