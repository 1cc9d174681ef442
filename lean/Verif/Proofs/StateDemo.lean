import Verif.Proofs.StateInv

/-! A four-validator setting for the examples and counterexamples about the State. -/

namespace Overlord
namespace StDemo

abbrev C := List UInt8

instance : ContentCodec C := ⟨some, some⟩

/-- Signatures name their signer and the signed hash; aggregation concatenates. -/
def crypto (me : Address) : Crypto :=
  { hash := fun b => b,
    sign := fun h => some (me ++ h),
    aggregate := fun sigs _ => some sigs.flatten,
    verifySig := fun sig h a => sig == a ++ h,
    verifyAgg := fun sig h voters => sig == voters.flatMap (· ++ h) }

def nodes : List Node := [⟨[1], 1, 1⟩, ⟨[2], 1, 1⟩, ⟨[3], 1, 1⟩, ⟨[4], 1, 1⟩]

/-- Validator 1; every save works; its own blocks are `[9]`; commits are answered with the next height. -/
def env : Env C :=
  { crypto := crypto [1], mode := .rotation, sh := .same, walSave := fun _ => true,
    walLoad := some none, getBlock := fun _ => some ([9, 9], [9]),
    commit := fun h _ => some { height := h + 1, interval := none, timerConfig := none, authorityList := nodes } }

/-- The storage is broken. -/
def envBroken : Env C := { env with walSave := fun _ => false }

def st0 : State C := State.new [1] 7 3000 nodes
def sign (a : UInt8) (v : Vote) : SignedVote := ⟨a :: encVote v, v, [a]⟩
def vote (a : UInt8) (h r : Nat) (ty : VoteType) (hash : Hash) : SignedVote := sign a ⟨h, r, ty, hash⟩
/-- A certificate signed by the given validators. -/
def cert (voters : List UInt8) (h r : Nat) (ty : VoteType) (hash : Hash) : AggregatedVote :=
  { signature := ⟨voters.flatMap (fun a => a :: encVote ⟨h, r, ty, hash⟩),
      (Authority.update nodes).bitmapOf (voters.map fun a => [a])⟩,
    voteType := ty, height := h, round := r, blockHash := hash, leader := [2] }
def prop (p : UInt8) (h r : Nat) (content : C) (hash : Hash) : SignedProposal C :=
  let x : Proposal C := { height := h, round := r, content, blockHash := hash, lock := none, proposer := [p] }
  ⟨p :: (encProposal x).getD [], x⟩
def choke (a : UInt8) (h r : Nat) (f : UpdateFrom) : SignedChoke :=
  ⟨a :: encHashChoke ⟨h, r⟩, ⟨h, r, f⟩, [a]⟩

end StDemo
end Overlord
