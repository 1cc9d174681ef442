import Verif.Spec.Net
import Verif.Spec.Node
import Verif.Spec.Codec

/-!
# Specification vocabulary: signatures that can not be forged (C56)
-/

namespace Overlord.Spec

/-- Nobody can sign for a correct validator: `c` accepts a signature on a vote in the name of a correct validator only if that validator has
released this vote, and an aggregated signature of a list of validators on a vote only if each correct one of them has released it.
(`VoteR`: height and round are `u64` values.) -/
structure Unforgeable (correct : Address → Bool) (votes : List (Address × Vote)) (c : Crypto) : Prop where
  single : ∀ s v a, VoteR v → correct a = true → c.verifySig s (c.hash (encVote v)) a = true → (a, v) ∈ votes
  aggregated : ∀ s v l, VoteR v → c.verifyAgg s (c.hash (encVote v)) l = true → ∀ a ∈ l, correct a = true → (a, v) ∈ votes

variable {T : Type}

/-- `Unforgeable` for the verification that ends. -/
def Unforged (correct : Address → Bool) (N : NetSys T) : NAct T → Prop
  | .verifyDone c _ => Unforgeable correct N.votes c
  | _ => True

/-- The validators that the bitmap of a certificate selects have more than two thirds of the weight. -/
def Strong (lists : Nat → List Node) (qc : AggregatedVote) : Prop :=
  VoteR qc.toVote ∧ Quorum (lists qc.height) (selected (lists qc.height) qc.signature.addressBitmap)

/-- What the code does not check of a message, although it passed the verification (C19, C20):
* that a certificate is above the threshold;
* that the lock evidence in a proposal is a prevote certificate of its height and of the claimed lock round, above the threshold;
* the certificate in a choke: neither threshold nor signature;
* the list in a status. -/
def Unchecked (lists : Nat → List Node) (correct : Address → Bool) (votes : List (Address × Vote)) : OverlordMsg T → Prop
  | .signedVote sv => VoteR sv.vote
  | .aggregatedVote qc => Strong lists qc
  | .signedProposal sp => ∀ l, sp.proposal.lock = some l → Strong lists l.lockVotes ∧ l.lockVotes.voteType = .prevote ∧
      l.lockVotes.height = sp.proposal.height ∧ l.lockVotes.round = l.lockRound
  | .signedChoke sc => ∀ qc, 0 < sc.choke.round → sc.choke.from = .prevoteQC qc ∨ sc.choke.from = .precommitQC qc →
      qc.height = sc.choke.height → Strong lists qc ∧
        ∃ c, Unforgeable correct votes c ∧ verifyQc c qc (Authority.update (lists qc.height)) = true
  | .richStatus st => st.authorityList = lists st.height
  | .stop => True

/-- `Unchecked` for the message that the State takes up, if it is a status or, at a validator, of the State's height. -/
def UncheckedInput (lists : Nat → List Node) (correct : Address → Bool) (votes : List (Address × Vote)) (n : NodeSys T) : NAct T → Prop
  | .arm .verified _ _ => ∀ m q, n.verifiedQ = m :: q →
      m.isRichStatus = true ∨ n.st.consensusPower = true ∧ m.getHeight? = some n.st.height → Unchecked lists correct votes m
  | _ => True

section
variable [ContentCodec T] [DecidableEq T]

/-- `NetStep` with signatures that can not be forged in place of genuine messages. -/
structure SignedStep (lists : Nat → List Node) (correct : Address → Bool) (N : NetSys T) (a : Address) (x : NAct T) : Prop where
  inSync : InSync (N.nodes a) x
  rounds : RoundSmall (N.nodes a) x
  start : StartOk a (N.nodes a) x
  answers : AnswersOk (N.nodes a) x
  saves : SavesWork (N.nodes a) x
  given : GivenLists lists a (N.nodes a) x
  unforged : Unforged correct N x
  unchecked : UncheckedInput lists correct N.votes (N.nodes a) x

/-- A schedule in which the steps of correct nodes meet `SignedStep`. -/
def SignedSchedule (lists : Nat → List Node) (correct : Address → Bool) (as : List (Address × NAct T)) : Prop :=
  AlongNet (fun N a x => correct a = true → SignedStep lists correct N a x) NetSys.new as

/-- No correct node takes up, for its current height, a message (other than a status) that it received before it reached that height. (Such a message is not
verified, C21.) -/
def NoneEarly (correct : Address → Bool) (as : List (Address × NAct T)) : Prop :=
  ∀ as1 a e cut as2 N m q, as = as1 ++ (a, .arm .verified e cut) :: as2 → correct a = true → NetSys.new.run as1 = some N →
    (N.nodes a).verifiedQ = m :: q → m.isRichStatus = false → m.getHeight? = some (N.nodes a).st.height → ¬ ArrivedEarly a (stepsOf a as1) m

end

end Overlord.Spec
