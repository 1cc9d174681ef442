import Verif.Proofs.Outcomes
import Verif.Proofs.SmrTrace
import Verif.Spec.Node

/-! Helper lemmas about whole nodes: schedules, votes and records in the log. -/

set_option linter.unusedSimpArgs false
set_option linter.unusedVariables false
set_option linter.unusedSectionVars false
set_option linter.unnecessarySeqFocus false

namespace Overlord
open M Spec

variable {T : Type} [ContentCodec T] [DecidableEq T]

theorem along_inv {ok : NodeSys T → NAct T → Prop} {addr : Address} {P : NodeSys T → Prop}
    (hstep : ∀ n a n', P n → ok n a → n.act addr a = some n' → P n') :
    ∀ as n n', P n → Along ok addr n as → n.run addr as = some n' → P n' := by
  intro as
  induction as with
  | nil => intro n n' hp _ hr; simp [NodeSys.run] at hr; exact hr ▸ hp
  | cons a as ih =>
    intro n n' hp ha hr
    simp only [NodeSys.run] at hr
    split at hr
    · cases hr
    · rename_i n1 h1
      exact ih n1 n' (hstep n a n1 hp ha.1 h1) (ha.2 n1 h1) hr

theorem run_snoc (addr : Address) (n : NodeSys T) (as : List (NAct T)) (a : NAct T) :
    n.run addr (as ++ [a]) = (n.run addr as).bind fun n' => n'.act addr a := by
  induction as generalizing n with
  | nil =>
    simp only [List.nil_append, NodeSys.run, Option.bind_some]
    cases n.act addr a <;> rfl
  | cons b as ih =>
    simp only [List.cons_append, NodeSys.run]
    cases n.act addr b with
    | none => rfl
    | some n1 => exact ih n1

/-- An invariant that may refer to the schedule so far. -/
theorem life_inv {addr : Address} {n0 : NodeSys T} {P : List (NAct T) → NodeSys T → Prop} (h0 : P [] n0)
    (hstep : ∀ as n a n', n0.run addr as = some n → P as n → n.act addr a = some n' → P (as ++ [a]) n') :
    ∀ as n, n0.run addr as = some n → P as n := by
  intro as
  induction hl : as.length generalizing as with
  | zero =>
    intro n hr
    have : as = [] := List.length_eq_zero_iff.1 hl
    subst this
    simp [NodeSys.run] at hr
    exact hr ▸ h0
  | succ k ih =>
    intro n hr
    have hne : as ≠ [] := by intro h; simp [h] at hl
    obtain ⟨b, a, rfl⟩ : ∃ b a, as = b ++ [a] := ⟨as.dropLast, as.getLast hne, (List.dropLast_concat_getLast hne).symm⟩
    rw [run_snoc] at hr
    obtain ⟨n1, h1, h2⟩ := Option.bind_eq_some_iff.1 hr
    exact hstep b n1 a n h1 (ih b (by simpa using hl) n1 h1) h2

/-! ## Votes and records of logs -/

theorem votesOf_append (l l' : List (Effect T)) : votesOf (l ++ l') = votesOf l ++ votesOf l' := by simp [votesOf]

/-- The votes among observations. -/
def obsVotes (o : List (Obs T)) : List SignedVote :=
  o.filterMap fun
    | .vote v => some v
    | _ => none

/-- The records among observations. -/
def obsSaves (o : List (Obs T)) : List (WalInfo T) :=
  o.filterMap fun
    | .save w => some w
    | _ => none

theorem votesOf_obs (l : List (Effect T)) : votesOf l = obsVotes (obs l) := by
  induction l with
  | nil => rfl
  | cons x l ih =>
    have h1 : obs (x :: l) = obs [x] ++ obs l := obs_append [x] l
    have h2 : votesOf (x :: l) = votesOf [x] ++ votesOf l := votesOf_append [x] l
    rw [h1, h2, ih]
    simp only [obsVotes, List.filterMap_append]
    congr 1
    cases x with
    | saveWal w ok => cases ok <;> rfl
    | trigger t => cases h : t.triggerType <;> simp [obs, obsOf, votesOf, releasedVote, h]
    | transmit d m => cases m <;> rfl
    | broadcast m => cases m <;> rfl
    | _ => rfl

theorem savedOf_obs (l : List (Effect T)) : savedOf l = obsSaves (obs l) := by
  induction l with
  | nil => rfl
  | cons x l ih =>
    have h1 : obs (x :: l) = obs [x] ++ obs l := obs_append [x] l
    have h2 : savedOf (x :: l) = savedOf [x] ++ savedOf l := by simp [savedOf, List.filterMap_cons]; split <;> simp_all
    rw [h1, h2, ih]
    simp only [obsSaves, List.filterMap_append]
    congr 1
    cases x with
    | saveWal w ok => cases ok <;> rfl
    | trigger t => cases h : t.triggerType <;> simp [obs, obsOf, savedOf, releasedVote, h]
    | transmit d m => cases m <;> rfl
    | broadcast m => cases m <;> rfl
    | _ => rfl

theorem obs_take (l : List (Effect T)) (k : Nat) : ∃ k', obs (l.take k) = (obs l).take k' := by
  have : obs (l.take k) <+: obs l := (List.take_prefix k l).filterMap obsOf
  exact ⟨_, (List.prefix_iff_eq_take.1 this)⟩

theorem obs_cut (cut : Option Nat) (l : List (Effect T)) : ∃ k', obs (cutTo cut l) = (obs l).take k' := by
  cases cut with
  | none => exact ⟨(obs l).length, by simp [cutTo]⟩
  | some k => exact obs_take l k

/-- A new height told to the voting state machine is observed. -/
theorem high_of_trigger {l : List (Effect T)} {t : SMRTrigger} {st : SMRStatus} (ht : .trigger t ∈ l)
    (h : t.triggerType = .newHeight st) : .high st ∈ obs l := by
  refine List.mem_filterMap.2 ⟨_, ht, ?_⟩
  simp [obsOf, h]

theorem trigger_of_high {l : List (Effect T)} {st : SMRStatus} (h : .high st ∈ obs l) :
    ∃ t, .trigger t ∈ l ∧ t.triggerType = .newHeight st := by
  obtain ⟨x, hx, ho⟩ := List.mem_filterMap.1 h
  cases x with
  | trigger t =>
    cases ht : t.triggerType <;> simp [obsOf, ht, releasedVote] at ho
    exact ⟨t, hx, by rw [ht, ho]⟩
  | saveWal w ok => cases ok <;> simp [obsOf, releasedVote] at ho
  | transmit d m => cases m <;> simp [obsOf, releasedVote] at ho
  | broadcast m => cases m <;> simp [obsOf, releasedVote] at ho
  | _ => simp [obsOf, releasedVote] at ho

theorem mem_trigsOf {l : List (Effect T)} {t : SMRTrigger} : t ∈ trigsOf l ↔ .trigger t ∈ l := by
  unfold trigsOf
  rw [List.mem_filterMap]
  constructor
  · rintro ⟨x, hx, h⟩
    cases x <;> simp at h
    subst h; exact hx
  · intro h; exact ⟨_, h, rfl⟩

/-- Only a start restores a record. -/
theorem arm_notWal {e : Env T} {s : State T} {i : Input T} (hi : i ≠ .start) {t : SMRTrigger}
    (ht : .trigger t ∈ (runArm i e ⟨s, []⟩).2.log) : NotWal t := by
  obtain ⟨s1, eff, s2, -, hm, hx⟩ := arm_effect (P := fun _ => True) trivial (fun _ _ _ _ _ => trivial) ht
  unfold NotWal
  cases hm with
  | trigQcId r ty qc =>
    simp only [List.mem_singleton, Effect.trigger.injEq] at hx
    subst hx; cases h : qc.voteType <;> simp [stTrigger, VoteType.toTrigger]
  | trigQcHash h ty qc =>
    simp only [List.mem_singleton, Effect.trigger.injEq] at hx
    subst hx; cases ty <;> simp [stTrigger, VoteType.toTrigger]
  | walLost h => exact absurd h hi
  | walTrigger _ _ h => exact absurd h hi
  | castVote => simp at hx; split at hx <;> simp at hx
  | enterRound => split at hx <;> simp at hx
  | _ => simp [stTrigger] at hx <;> (try (subst hx; simp))

theorem took_up {n : NodeSys T} {cut : Option Nat} {r : Except Err Bool × World T}
    (h : (n.took cut r).down = false) : cut = none ∧ r.1 = .ok true := by
  unfold NodeSys.took at h
  simp only at h
  split at h
  · rename_i h1; exact ⟨rfl, h1⟩
  · cases h

end Overlord
