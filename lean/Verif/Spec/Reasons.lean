import Verif.Spec.Orders

/-!
# Specification vocabulary for the reasons in chokes (C55)

A choke for round `r` of height `k` carries the reason for which its sender is in that round.
-/

namespace Overlord.Spec

/-- The reason explains why a node is in round `r` of height `k`, where `n` is the number of validators: round `r - 1` has a prevote
certificate, or a precommit certificate for no block, or a choke certificate that names more than two thirds of the validators. -/
def Explains (n k r : Nat) : UpdateFrom → Prop
  | .prevoteQC qc => qc.voteType = .prevote ∧ qc.height = k ∧ qc.round + 1 = r
  | .precommitQC qc => qc.voteType = .precommit ∧ qc.height = k ∧ qc.round + 1 = r ∧ qc.blockHash = []
  | .chokeQC qc => qc.round + 1 = r ∧ 2 * n < 3 * qc.voters.length

end Overlord.Spec
