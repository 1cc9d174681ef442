import Verif.Spec.Blame
import Verif.Props.Single
import Verif.Proofs.NetGen

set_option linter.unusedVariables false
set_option linter.unusedSectionVars false

namespace Overlord.Blame
open M Spec

variable {T : Type} [ContentCodec T] [DecidableEq T]

/-- One node of the network. -/
theorem calm_node {correct : Address → Bool} {as : List (Address × NAct T)} {N : NetSys T} (hr : NetSys.new.run as = some N)
    (ok : CalmNet correct as) {a : Address} (ha : correct a = true) :
    (NodeSys.new a).run a (stepsOf a as) = some (N.nodes a) ∧ CalmSchedule a (stepsOf a as) := by
  refine ⟨net_steps a as _ N hr, ?_⟩
  exact net_along (ok := fun n x => InSync n x ∧ RoundSmall n x ∧ StartOk a n x) a as _ N hr
    (alongNet_mono (fun N b x h e => by subst e; exact h ha) as _ ok)

theorem mine_run : ∀ (as : List (Address × NAct T)) (N N' : NetSys T), (∀ a v, (a, v) ∈ N.votes ↔ ∃ sv ∈ votesOf (N.nodes a).log, sv.vote = v) →
    N.run as = some N' → ∀ a v, (a, v) ∈ N'.votes ↔ ∃ sv ∈ votesOf (N'.nodes a).log, sv.vote = v := by
  intro as
  induction as with
  | nil => intro N N' h hr; simp only [NetSys.run, Option.some.injEq] at hr; subst hr; exact h
  | cons y as ih =>
    obtain ⟨b, x⟩ := y
    intro N N' h hr
    simp only [NetSys.run] at hr
    split at hr
    · cases hr
    · rename_i N1 h1
      exact ih N1 N' (mine_step h h1) hr

/-- A correct node has released at most one vote for a height, round and type. -/
theorem one_vote {correct : Address → Bool} {as : List (Address × NAct T)} {N : NetSys T} (hr : NetSys.new.run as = some N)
    (ok : CalmNet correct as) {a : Address} (ha : correct a = true) {v w : Vote} (hv : (a, v) ∈ N.votes) (hw : (a, w) ∈ N.votes)
    (h1 : v.height = w.height) (h2 : v.round = w.round) (h3 : v.voteType = w.voteType) : v = w := by
  have hm := mine_run as _ N (netGen_new (fun _ => []) correct).mine hr a
  obtain ⟨sv, hv1, rfl⟩ := (hm v).1 hv
  obtain ⟨sw, hw1, rfl⟩ := (hm w).1 hw
  obtain ⟨r1, r2⟩ := calm_node hr ok ha
  rw [C31_no_equivocation_partial a _ _ r1 r2 sv sw hv1 hw1 h1 h2 h3]

end Overlord.Blame
