import Verif.Spec.Node

/-!
# Specification vocabulary for C70: one proposal per round

Only what a node sends.
-/

namespace Overlord.Spec

variable {T : Type}

/-- The proposals a node sends out, oldest first. -/
def proposalsOf (log : List (Effect T)) : List (Proposal T) :=
  log.filterMap fun
    | .broadcast (.signedProposal sp) => some sp.proposal
    | .transmit _ (.signedProposal sp) => some sp.proposal
    | _ => none

/-- `p` is for an earlier height than `q`, or for an earlier round of the same height. -/
def EarlierSlot (p q : Proposal T) : Prop :=
  p.height < q.height ∨ (p.height = q.height ∧ p.round < q.round)

end Overlord.Spec
