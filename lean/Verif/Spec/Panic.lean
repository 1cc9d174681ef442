import Verif.Spec.Net
import Verif.Spec.Good

/-! # Specification vocabulary for C48 (no input makes a node panic) -/

namespace Overlord.Spec

variable {T : Type}

/-- A list from which a leader can be chosen: not empty (and its length an `u32`); with random leaders, some validator has
a propose weight (and the sum is a `u64`). -/
def Usable (mode : LeaderMode) (l : List Node) : Prop :=
  match mode with
  | .rotation => l ≠ [] ∧ l.length < 2 ^ 32
  | .random _ => 0 < (l.map Node.proposeWeight).sum ∧ (l.map Node.proposeWeight).sum < 2 ^ 64

section
variable [ContentCodec T]

/-- What is asked of the application and the storage: one leader mode, usable lists in the start, in the answers to commits and in
the statuses, no `Stop`, no record with an impossible step or justification tag (C25). Nothing is asked of other messages, of
the signatures, of saving, of blocks. -/
def SoundInput (mode : LeaderMode) (_ : NodeSys T) : NAct T → Prop
  | .arm a e _ => e.mode = mode ∧ (∀ k c st, e.commit k c = some st → Usable mode st.authorityList) ∧
      a ≠ .raw .stop ∧ ∀ st, a = .raw (.richStatus st) → Usable mode st.authorityList
  | .start p e _ => e.mode = mode ∧ (∀ k c st, e.commit k c = some st → Usable mode st.authorityList) ∧
      Usable mode p.list ∧ ∀ b, e.walLoad = some (some b) → decWalInfo (T := T) b ≠ .error .panic
  | _ => True

end

/-- The node crashes in this step. -/
def crashStep : NAct T → Bool
  | .crash => true
  | .arm _ _ cut => cut.isSome
  | .start _ _ cut => cut.isSome
  | _ => false

end Overlord.Spec
