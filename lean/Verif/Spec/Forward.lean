import Verif.Spec.Node

/-!
# Specification vocabulary for C74: the records go forward

Only what a node saves, and what the application answers.
-/

namespace Overlord.Spec

variable {T : Type}

/-- The places the records stand for, oldest first: height, round and step (propose 0, prevote 1, precommit 2, brake 3,
commit 4). -/
def placesOf (log : List (Effect T)) : List Pos := (savedOf log).map recPos

/-- Record `b` may follow record `a`: it is for a later height, or for the same height and a place not before `a`; and once a
commit is recorded for a height, nothing else is recorded for it. -/
def Onward (a b : Pos) : Prop :=
  a.height < b.height ∨ (a.height = b.height ∧
    ((a.step < 4 ∧ (a.round < b.round ∨ (a.round = b.round ∧ a.step ≤ b.step))) ∨ (a.round = b.round ∧ a.step = b.step)))

/-- The application does not fail to commit a block: it answers with a status of a later height, for which a leader can
be found. -/
def CommitsSucceed (e : Env T) : Prop :=
  ∀ k c, ∃ st, e.commit k c = some st ∧ k < st.height ∧
    ∃ l, (Authority.update st.authorityList).getProposer e.mode st.height INIT_ROUND = .ok l

/-- `CommitsSucceed` for the step that is taken. -/
def CommitsOk (_ : NodeSys T) : NAct T → Prop
  | .arm _ e _ => CommitsSucceed e
  | .start _ e _ => CommitsSucceed e
  | _ => True

end Overlord.Spec
