import Verif.Spec.Node

/-!
# Specification vocabulary for C72: what the application is given

Only the calls of the application's `commit`, and what the storage and the application answer.
-/

namespace Overlord.Spec

variable {T : Type}

/-- The calls of the application's `commit`, oldest first: height and commit. -/
def callsOf (log : List (Effect T)) : List (Nat × Commit T) :=
  log.filterMap fun
    | .commitCall k c _ => some (k, c)
    | _ => none

/-- `a` is for an earlier height than `b`, or it is the same call. -/
def EarlierOrSame (a b : Nat × Commit T) : Prop := a.1 < b.1 ∨ a = b

section
variable [ContentCodec T] [DecidableEq T]

/-- The application never fails to commit, and its answers are statuses of later heights with a leader. -/
def Answers (e : Env T) : Prop := CommitsAnswered e ∧ ∀ k c, e.commit k c ≠ none

/-- `Answers` for the step that is taken. -/
def AnswersAll (_ : NodeSys T) : NAct T → Prop
  | .arm _ e _ => Answers e
  | .start _ e _ => Answers e
  | _ => True

/-- A start that finds the record of a commit can find a leader for it, and the storage takes the record once more. -/
def RestartOk (n : NodeSys T) : NAct T → Prop
  | .start p e _ => ∀ w, lastSaved n.log = some w → w.step = .commit →
      (∃ l, (Authority.update p.list).getProposer e.mode w.height w.round = .ok l) ∧ ∀ b, e.walSave b = true
  | _ => True

/-- All steps of the life are as expected of the storage and the application. -/
def SoundSchedule (addr : Address) (as : List (NAct T)) : Prop :=
  Along (fun n a => StartOk addr n a ∧ AnswersAll n a ∧ RestartOk n a) addr (NodeSys.new addr) as

end

end Overlord.Spec
