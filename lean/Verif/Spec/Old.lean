import Verif.Spec.Node
import Verif.Spec.State
import Verif.Spec.Panic

/-!
# Specification vocabulary for C76: what is over is over
-/

namespace Overlord.Spec

variable {T : Type}

/-- A message about a place the node has left behind: an earlier height, or an earlier round of its height (certificates only if they
are prevote certificates or for nothing: a precommit certificate for a block of an earlier round still counts); a status of a
height that is not later. -/
def Past (height round : Nat) : OverlordMsg T → Prop
  | .signedProposal sp => sp.proposal.height < height ∨ sp.proposal.height = height ∧ sp.proposal.round < round
  | .signedVote sv => sv.vote.height < height ∨ sv.vote.height = height ∧ sv.vote.round < round
  | .aggregatedVote qc => qc.height < height ∨
      qc.height = height ∧ qc.round < round ∧ (qc.voteType = .prevote ∨ qc.blockHash = [])
  | .signedChoke sc => sc.choke.height < height ∨ sc.choke.height = height ∧ sc.choke.round < round
  | .richStatus st => st.height ≤ height
  | .stop => False

/-- A message about an earlier height. -/
def Over (height : Nat) (m : OverlordMsg T) : Prop := ∃ k, m.getHeight? = some k ∧ k < height

/-- The list, some elements of the given kind left out. -/
inductive Thinned {α : Type} (p : α → Prop) : List α → List α → Prop
  | nil : Thinned p [] []
  | keep (x : α) {l l' : List α} : Thinned p l l' → Thinned p (x :: l) (x :: l')
  | drop (x : α) {l l' : List α} : p x → Thinned p l l' → Thinned p (x :: l) l'

/-- The two nodes are the same, but some messages about earlier heights that still wait in the first one do not wait in the second one. -/
def SameButOver (n m : NodeSys T) : Prop :=
  ∃ v w, m = { n with verifying := v, verifiedQ := w } ∧
    Thinned (fun x => Over n.st.height x.1) n.verifying v ∧ Thinned (Over n.st.height) n.verifiedQ w

/-- No message about an earlier height reaches the node from outside (a status aside). -/
def NothingOver (n : NodeSys T) : NAct T → Prop
  | .arm (.raw x) _ _ => x.isRichStatus = true ∨ ¬ Over n.st.height x
  | _ => True

section
variable [ContentCodec T] [DecidableEq T]

/-- If the message is a proposal: who leads its height and round can be computed (the list is not empty; C48). -/
def LeaderKnown (e : Env T) (s : State T) (m : OverlordMsg T) : Prop :=
  ∀ sp, m = .signedProposal sp → s.authority.getProposer e.mode sp.proposal.height sp.proposal.round ≠ .error .panic

/-- The second history is the first one with messages added, each of which was about the past when it arrived. -/
inductive WithPast : State T → List (Env T × Input T) → List (Env T × Input T) → Prop
  | nil (s : State T) : WithPast s [] []
  | same (s : State T) (x : Env T × Input T) {l l' : List (Env T × Input T)} :
      (∀ t, s.after [x] = some t → WithPast t l l') → WithPast s (x :: l) (x :: l')
  | past (s : State T) (e : Env T) (m : OverlordMsg T) {l l' : List (Env T × Input T)} : Past s.height s.round m →
      LeaderKnown e s m → WithPast s l l' →
      WithPast s l ((e, .verified m) :: l')

end

end Overlord.Spec
