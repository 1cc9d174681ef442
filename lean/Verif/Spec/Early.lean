import Verif.Spec.State

/-!
# Specification vocabulary for messages that arrive before their height (C64)
-/

namespace Overlord.Spec

variable {T : Type}

/-- The certificates an input brings to the node: the message itself, or the reason inside a choke. -/
def BringsQc (i : Input T) (qc : AggregatedVote) : Prop :=
  i = .verified (.aggregatedVote qc) ∨
  ∃ sc, i = .verified (.signedChoke sc) ∧ (sc.choke.from = .prevoteQC qc ∨ sc.choke.from = .precommitQC qc)

/-- Two certificates of the same height, round and type. -/
def SameSlot (a b : AggregatedVote) : Prop :=
  a.height = b.height ∧ a.round = b.round ∧ a.voteType = b.voteType

/-- A height and round ahead of the node that it keeps messages for: at most five heights and ten rounds. -/
def Ahead (s : State T) (height round : Nat) : Prop :=
  s.height < height ∧ height ≤ s.height + 5 ∧ round ≤ 10

/-- The node is at a lower height in `s1`; handling `i1` takes it, as a validator, to height `k`, and its storage
works. -/
structure Reaches [ContentCodec T] [DecidableEq T] (k : Nat) (e1 : Env T) (i1 : Input T) (s1 : State T) : Prop where
  below : s1.height < k
  there : (next e1 i1 s1).height = k
  power : (next e1 i1 s1).consensusPower = true
  saved : ∀ w, Effect.saveWal w false ∉ effects e1 i1 s1

end Overlord.Spec
