import Verif.Model.Types
import Verif.Spec.Authority

/-!
# Specification vocabulary for vote pools
-/

namespace Overlord.Spec

/-- What happens to a vote pool: a vote is received, or a certificate is stored. -/
inductive VoteOp where
  | vote (sv : SignedVote)
  | qc (q : AggregatedVote)
deriving DecidableEq, Repr

/-- The first vote of validator `a` for a height, round and type in a history (oldest first). -/
def firstVote (ops : List VoteOp) (height round : Nat) (ty : VoteType) (a : Address) :
    Option SignedVote :=
  match ops with
  | [] => none
  | .qc _ :: ops => firstVote ops height round ty a
  | .vote sv :: ops =>
    if sv.vote.height = height ∧ sv.vote.round = round ∧ sv.vote.voteType = ty ∧ sv.voter = a then
      some sv
    else firstVote ops height round ty a

/-- `a`'s counted vote is for `hash`. -/
def votedFor (ops : List VoteOp) (height round : Nat) (ty : VoteType) (hash : Hash) (a : Address) :
    Bool :=
  match firstVote ops height round ty a with
  | some sv => sv.vote.blockHash == hash
  | none => false

/-- All voters are validators. -/
def VotersIn (ops : List VoteOp) (l : List Node) : Prop :=
  ∀ sv, VoteOp.vote sv ∈ ops → sv.voter ∈ l.map Node.address

end Overlord.Spec
