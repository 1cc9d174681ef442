import Verif.Spec.Net
import Verif.Spec.Node
import Verif.Spec.Codec

/-!
# Specification vocabulary: proofs that convince outsiders (C62)

An outsider ("light client") follows no messages. It is given a proof, knows the validator list of the proof's height and can verify
aggregated signatures.
-/

namespace Overlord.Spec

/-- Aggregated signatures as an outsider checks them: `extract_voters` names the signers, these have more than two thirds of the weight, and the
signature is theirs, on the vote `v`. -/
def SignedByTwoThirds (V : Crypto) (l : List Node) (s : AggregatedSignature) (v : Vote) : Prop :=
  ∃ voters, extractVoters l s.addressBitmap = .ok voters ∧ 2 * total l < 3 * weight l (fun a => decide (a ∈ voters)) ∧
    V.verifyAgg s.signature (V.hash (encVote v)) voters = true

/-- An outsider with the validator list `l` accepts the proof: it names a block, and more than two thirds have signed precommits for it. -/
def LightAccepts (V : Crypto) (l : List Node) (p : Proof) : Prop :=
  p.blockHash ≠ [] ∧ SignedByTwoThirds V l p.signature ⟨p.height, p.round, .precommit, p.blockHash⟩

/-- An outsider accepts the certificate. -/
def Convincing (V : Crypto) (lists : Nat → List Node) (qc : AggregatedVote) : Prop :=
  SignedByTwoThirds V (lists qc.height) qc.signature ⟨qc.height, qc.round, qc.voteType, qc.blockHash⟩

/-- `c` is the implementation, at the node `a`, of the signature scheme that `V` verifies: what it signs is a valid signature of `a`, and the aggregate
of valid signatures of one message is a valid aggregated signature. -/
structure Implements (V : Crypto) (a : Address) (c : Crypto) : Prop where
  hash : c.hash = V.hash
  sig : c.verifySig = V.verifySig
  agg : c.verifyAgg = V.verifyAgg
  signs : ∀ h s, c.sign h = some s → V.verifySig s h a = true
  aggregates : ∀ (sigs : List Signature) (voters : List Address) (s h), c.aggregate sigs voters = some s → sigs.length = voters.length →
    (∀ p ∈ sigs.zip voters, V.verifySig p.1 h p.2 = true) → V.verifyAgg s h voters = true

variable {T : Type}

/-- The node uses the scheme. -/
def UsesScheme (V : Crypto) (a : Address) : NAct T → Prop
  | .arm _ e _ => Implements V a e.crypto
  | .start _ e _ => Implements V a e.crypto
  | .verifyDone c _ => Implements V a c
  | _ => True

/-- What the code does not check of the messages it takes up (C19, C20): that certificates are above the threshold, the certificates in
chokes, and the list in a status. -/
def WeighedInput (V : Crypto) (lists : Nat → List Node) (n : NodeSys T) : NAct T → Prop
  | .arm .verified _ _ => ∀ m q, n.verifiedQ = m :: q → m.isRichStatus = true ∨ n.st.consensusPower = true ∧ m.getHeight? = some n.st.height →
      match m with
      | .aggregatedVote qc => Quorum (lists qc.height) (selected (lists qc.height) qc.signature.addressBitmap)
      | .signedChoke sc => ∀ qc, 0 < sc.choke.round → sc.choke.from = .prevoteQC qc ∨ sc.choke.from = .precommitQC qc →
          qc.height = sc.choke.height → Convincing V lists qc
      | .richStatus st => st.authorityList = lists st.height
      | _ => True
  | _ => True

section
variable [ContentCodec T] [DecidableEq T]

/-- What is asked of a step of the node. -/
structure LightStep (V : Crypto) (lists : Nat → List Node) (a : Address) (n : NodeSys T) (x : NAct T) : Prop where
  start : StartOk a n x
  answers : AnswersOk n x
  saves : SavesWork n x
  given : GivenLists lists a n x
  scheme : UsesScheme V a x
  weighed : WeighedInput V lists n x

/-- The node takes up, for its current height, no message (other than a status) that it received before it reached that height. (Such a
message is not verified, C21.) -/
def NothingEarly (a : Address) (as : List (NAct T)) : Prop :=
  ∀ as1 e cut as2 n m q, as = as1 ++ .arm .verified e cut :: as2 → (NodeSys.new a).run a as1 = some n →
    n.verifiedQ = m :: q → m.isRichStatus = false → m.getHeight? = some n.st.height → ¬ ArrivedEarly a as1 m

end

/-- The certificate given as the reason for a round is accepted, or is the one made up for the first round of a height. -/
def ReasonConvinces (V : Crypto) (lists : Nat → List Node) (u : UpdateFrom) : Prop :=
  ∀ qc, u = .prevoteQC qc ∨ u = .precommitQC qc → qc = mockInitQc ∨ Convincing V lists qc

/-- The certificates in what a node sends, saves and commits. -/
def Certificates (V : Crypto) (lists : Nat → List Node) : Effect T → Prop
  | .commitCall k c _ => c.proof.height = k ∧ LightAccepts V (lists k) c.proof
  | .broadcast (.aggregatedVote qc) => Convincing V lists qc
  | .broadcast (.signedProposal sp) => ∀ l, sp.proposal.lock = some l → Convincing V lists l.lockVotes
  | .broadcast (.signedChoke sc) => ReasonConvinces V lists sc.choke.from
  | .saveWal w true => (∀ l, w.lock = some l → Convincing V lists l.lockVotes) ∧ ReasonConvinces V lists w.from
  | _ => True

end Overlord.Spec
