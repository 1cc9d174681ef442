import Verif.Model.Net
import Verif.Spec.Authority

/-!
# Specification vocabulary for networks (C43, C44)

`lists k` is the validator list of height `k`; `correct a` says that the node with address `a` runs the modelled code; the others
are faulty: they may send anything.
-/

namespace Overlord.Spec

/-- The faulty validators of every height have at most a third of the weight. -/
def FewFaulty (lists : Nat → List Node) (correct : Address → Bool) : Prop :=
  ∀ k, 3 * weight (lists k) (fun a => !correct a) ≤ total (lists k)

/-- The validator lists name every validator once, and their weights can be summed. -/
def GoodLists (lists : Nat → List Node) : Prop := ∀ k, Distinct (lists k) ∧ Sized (lists k)

/-- The validators that are faulty or have released this vote have more than two thirds of the weight: a certificate can exist. -/
def Certified (lists : Nat → List Node) (correct : Address → Bool) (votes : List (Address × Vote))
    (ty : VoteType) (k r : Nat) (h : Hash) : Prop :=
  Quorum (lists k) fun a => !correct a || decide ((a, (⟨k, r, ty, h⟩ : Vote)) ∈ votes)

instance (lists : Nat → List Node) (correct : Address → Bool) (votes : List (Address × Vote)) (ty : VoteType) (k r : Nat) (h : Hash) :
    Decidable (Certified lists correct votes ty k r h) := inferInstanceAs (Decidable (Quorum _ _))

variable {T : Type}

/-- What a message may claim, given the votes released so far:
* a vote in the name of a correct node was released by that node (signatures can not be forged);
* a certificate can exist: the weight behind it has been counted (see C19 for what the code checks);
* the lock round of a proposal is one for which a prevote certificate can exist;
* the certificate in a choke for a round above 0, if it is one of the choke's height, can exist (see C20 for what the code checks);
* a status carries the validator list of its height. -/
def Genuine (lists : Nat → List Node) (correct : Address → Bool) (votes : List (Address × Vote)) : OverlordMsg T → Prop
  | .signedVote sv => correct sv.voter = true → (sv.voter, sv.vote) ∈ votes
  | .aggregatedVote qc => Certified lists correct votes qc.voteType qc.height qc.round qc.blockHash
  | .signedProposal sp => ∀ l, sp.proposal.lock = some l →
      ∃ h, Certified lists correct votes .prevote sp.proposal.height l.lockRound h
  | .signedChoke sc => ∀ qc, 0 < sc.choke.round → sc.choke.from = .prevoteQC qc ∨ sc.choke.from = .precommitQC qc →
      qc.height = sc.choke.height → Certified lists correct votes qc.voteType qc.height qc.round qc.blockHash
  | .richStatus st => st.authorityList = lists st.height
  | .stop => True

/-- The message that the State takes from the channel of verified messages is genuine, if it is a status or, at a node that is a validator, a
message of the State's height. Nothing is assumed about messages that do not get through the verification, nor about messages of later heights. -/
def GenuineInput (lists : Nat → List Node) (correct : Address → Bool) (votes : List (Address × Vote)) (n : NodeSys T) : NAct T → Prop
  | .arm .verified _ _ => ∀ m q, n.verifiedQ = m :: q → m.isRichStatus = true ∨ n.st.consensusPower = true ∧ m.getHeight? = some n.st.height →
      Genuine lists correct votes m
  | _ => True

/-- The application answers commits with the validator list of the height it orders; at a start the node is given the list of the
height it starts at, if it is in it. -/
def GivenLists (lists : Nat → List Node) (addr : Address) (n : NodeSys T) : NAct T → Prop
  | .arm _ e _ => ∀ k c st, e.commit k c = some st → st.authorityList = lists st.height
  | .start p e _ =>
    (∀ k c st, e.commit k c = some st → st.authorityList = lists st.height) ∧
    ((p.list.map Node.address).contains addr = true → p.list = lists (match lastSaved n.log with
      | some w => w.height
      | none => p.initHeight))
  | _ => True

/-- The next trigger of the voting state machine does not remove its lock because of a certificate for the locked block itself.
(The code does this, see C43; then a block may be given up although it was committed elsewhere.) -/
def NoSelfUnlock (lists : Nat → List Node) (correct : Address → Bool) (votes : List (Address × Vote)) (n : NodeSys T) : NAct T → Prop
  | .smr => ∀ t q l lr, n.sys.trigQ = t :: q → t.triggerType = .proposal → t.source = .state →
      t.height = n.sys.smr.height → t.round = n.sys.smr.round → n.sys.smr.lock = some l → t.lockRound = some lr → l.round < lr →
      ¬ Certified lists correct votes .prevote n.sys.smr.height lr l.hash
  | _ => True

section
variable [ContentCodec T] [DecidableEq T]

/-- What is asked of a step of a correct node: the conditions of Spec/Node.lean, the right validator lists and genuine messages.
Nothing is asked of faulty nodes. -/
structure NetStep (lists : Nat → List Node) (correct : Address → Bool) (N : NetSys T) (a : Address) (x : NAct T) : Prop where
  inSync : InSync (N.nodes a) x
  rounds : RoundSmall (N.nodes a) x
  start : StartOk a (N.nodes a) x
  answers : AnswersOk (N.nodes a) x
  saves : SavesWork (N.nodes a) x
  given : GivenLists lists a (N.nodes a) x
  genuine : GenuineInput lists correct N.votes (N.nodes a) x

/-- The part of `NetStep` that concerns where certificates come from: no assumption on the order in which orders are taken up, on
rounds or on locks. -/
structure GenStep (lists : Nat → List Node) (correct : Address → Bool) (N : NetSys T) (a : Address) (x : NAct T) : Prop where
  start : StartOk a (N.nodes a) x
  answers : AnswersOk (N.nodes a) x
  saves : SavesWork (N.nodes a) x
  given : GivenLists lists a (N.nodes a) x
  genuine : GenuineInput lists correct N.votes (N.nodes a) x

/-- Along the whole schedule, every step of a node is `ok` in the network in which it is taken. -/
def AlongNet (ok : NetSys T → Address → NAct T → Prop) : NetSys T → List (Address × NAct T) → Prop
  | _, [] => True
  | N, (a, x) :: as => ok N a x ∧ ∀ N', N.act a x = some N' → AlongNet ok N' as

/-- A schedule in which the steps of correct nodes meet `NetStep`. -/
def FairSchedule (lists : Nat → List Node) (correct : Address → Bool) (as : List (Address × NAct T)) : Prop :=
  AlongNet (fun N a x => correct a = true → NetStep lists correct N a x) NetSys.new as

/-- A schedule in which the steps of correct nodes meet `GenStep`. -/
def GenuineSchedule (lists : Nat → List Node) (correct : Address → Bool) (as : List (Address × NAct T)) : Prop :=
  AlongNet (fun N a x => correct a = true → GenStep lists correct N a x) NetSys.new as

/-- A schedule in which correct nodes meet `NoSelfUnlock`. -/
def KeepsLocks (lists : Nat → List Node) (correct : Address → Bool) (as : List (Address × NAct T)) : Prop :=
  AlongNet (fun N a x => correct a = true → NoSelfUnlock lists correct N.votes (N.nodes a) x) NetSys.new as

/-- The steps of node `a` in a schedule. -/
def stepsOf (a : Address) (as : List (Address × NAct T)) : List (NAct T) :=
  as.filterMap fun (b, x) => if b = a then some x else none

/-- In the schedule `as` of the node `addr`, the application's `check_block` succeeded for hash `h`, with content `c` at height `k`. -/
def EverChecked (addr : Address) (as : List (NAct T)) (k : Nat) (h : Hash) (c : T) : Prop :=
  ∃ as1 i as2 n r, as = as1 ++ .checkDone i true :: as2 ∧ (NodeSys.new addr).run addr as1 = some n ∧
    n.checking[i]? = some (k, r, h, c)

end

end Overlord.Spec
