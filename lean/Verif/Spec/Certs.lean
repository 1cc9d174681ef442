import Verif.Spec.State
import Verif.Spec.Collection
import Verif.Spec.Early

/-!
# Specification vocabulary for the making of certificates (C77)
-/

namespace Overlord.Spec
variable {T : Type}

/-- Verified votes are handed to the node one after the other, each in its own environment (own iteration orders,
own outcomes of the callbacks). -/
def handVotes (vs : List (Env T × SignedVote)) : List (Env T × Input T) :=
  vs.map fun p => (p.1, .verified (.signedVote p.2))

/-- These votes, as a history. -/
def asHistory (vs : List (Env T × SignedVote)) : List VoteOp := vs.map fun p => .vote p.2

/-- The blocks of the certificates for a height, round and type that are broadcast, oldest first. -/
def certified (log : List (Effect T)) (height round : Nat) (ty : VoteType) : List Hash :=
  log.filterMap fun
    | .broadcast (.aggregatedVote qc) =>
      if qc.height = height ∧ qc.round = round ∧ qc.voteType = ty then some qc.blockHash else none
    | _ => none

/-- Nothing is collected for the node's height, its round and this type: no certificate, no vote of anybody. -/
structure Untouched (s : State T) (ty : VoteType) : Prop where
  noCert : s.votes.getQcById s.height s.round ty = .error .storageErr
  noVotes : s.votes.getVoteMap s.height s.round ty = .error .storageErr
  noVoter : ∀ a, keptVote s s.height s.round ty a = none

/-- The signatures of the votes that can be among these votes can be aggregated. -/
def Aggregates (vs : List (Env T × SignedVote)) : Prop :=
  ∀ p ∈ vs, ∀ sigs voters, (p.1.crypto.aggregate sigs voters).isSome

/-! ## In any company -/

variable [ContentCodec T] [DecidableEq T]

/-- While it handles `i` the node stays at its height and round with its validator list, does not stop, and gets no
certificate of this type for its height and round. -/
structure AtItsRound (ty : VoteType) (e : Env T) (i : Input T) (s : State T) : Prop where
  goesOn : (runArm i e ⟨s, []⟩).1 = .ok true
  noRestart : i ≠ .start
  height : (next e i s).height = s.height
  round : (next e i s).round = s.round
  authority : (next e i s).authority = s.authority
  power : (next e i s).consensusPower = s.consensusPower
  address : (next e i s).address = s.address
  noCert : ∀ qc, BringsQc i qc → ¬ (qc.height = s.height ∧ qc.round = s.round ∧ qc.voteType = ty)

/-- The same, input after input. -/
def KeepsItsRound (ty : VoteType) (s : State T) : List (Env T × Input T) → Prop
  | [] => True
  | (e, i) :: ins => AtItsRound ty e i s ∧ KeepsItsRound ty (next e i s) ins

/-- The vote an input hands in. -/
def handedIn : Input T → List VoteOp
  | .verified (.signedVote sv) => [.vote sv]
  | _ => []

/-- The own votes among the effects that the node keeps for its own count. -/
def ownVotes (log : List (Effect T)) : List VoteOp :=
  log.filterMap fun
    | .ownVote sv => some (.vote sv)
    | _ => none

/-- All votes the node takes up, oldest first: those handed in and its own. -/
def votesSeen (s : State T) : List (Env T × Input T) → List VoteOp
  | [] => []
  | (e, i) :: ins => handedIn i ++ ownVotes (effects e i s) ++ votesSeen (next e i s) ins

end Overlord.Spec
