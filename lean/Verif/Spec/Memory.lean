import Verif.Spec.State

/-!
# Specification vocabulary for what a node holds in memory (C66)
-/

namespace Overlord.Spec
variable {T : Type}

/-- The slot of a vote: height, round, type, sender. -/
structure VoteSlot where
  height : Nat
  round : Nat
  voteType : VoteType
  voter : Address
deriving DecidableEq, Repr

/-- The node holds a vote for the slot. -/
def HoldsVote (s : State T) (x : VoteSlot) : Prop := ∃ sv, keptVote s x.height x.round x.voteType x.voter = some sv

/-- The node holds a proposal for the height and round. -/
def HoldsProposal (s : State T) (x : Nat × Nat) : Prop := ∃ sp, s.proposals.get x.1 x.2 = .ok sp

/-- The node holds this certificate. -/
def HoldsCertificate (s : State T) (qc : AggregatedVote) : Prop := s.votes.getQcById qc.height qc.round qc.voteType = .ok qc

/-- The node holds a block for the hash. -/
def HoldsBlock (s : State T) (hash : Hash) : Prop := ∃ c, s.hashWithBlock.get? hash = some c

/-- The node holds this choke. -/
def HoldsChoke (s : State T) (sc : SignedChoke) : Prop :=
  ∃ m, s.chokes.chokes.get? sc.choke.round = some m ∧ m.get? sc.address = some sc

/-- The node remembers that the block was checked. -/
def HoldsCheck (s : State T) (hash : Hash) : Prop := ∃ b, s.isFullTransaction.get? hash = some b

/-- All validator lists that the input or the environment brings are within `U`. -/
def ListsWithin (U : List Address) (e : Env T) (i : Input T) : Prop :=
  (∀ st, i = .verified (.richStatus st) → ∀ a ∈ st.authorityList.map Node.address, a ∈ U) ∧
  (∀ h c st, e.commit h c = some st → ∀ a ∈ st.authorityList.map Node.address, a ∈ U)

/-- The rounds that the voting state machine or the storage sends the node to are at most `B`. -/
def RoundsWithin [ContentCodec T] (B : Nat) (e : Env T) (i : Input T) : Prop :=
  (∀ h round lr lp f ni nc, i = .event (.newRoundInfo h round lr lp f ni nc) → round ≤ B) ∧
  (∀ b w, i = .start → e.walLoad = some (some b) → decWalInfo (T := T) b = .ok w → w.round ≤ B)

/-- The storage takes every record. -/
def Stores (e : Env T) : Prop := ∀ b, e.walSave b = true

end Overlord.Spec
