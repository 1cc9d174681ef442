import Verif.Proofs.Again
import Verif.Props.Seeds

/-!
# C69: Messages may arrive any number of times

The specification is `Spec/Again.lean`.
-/

set_option linter.unusedSimpArgs false

namespace Overlord
open Spec

variable {T : Type} [ContentCodec T] [DecidableEq T]

/-- **C69, one message.** A message (or an answer of a block check) that comes a second time changes nothing, whatever the
state and the environment, and nothing is sent, logged, committed, asked for or reported that was not done the first time;
of the kinds that matter to others, nothing at all. (If the node did not survive the first, there is no second.) -/
theorem C69_second_time_changes_nothing (e : Env T) (i : Input T) (hi : repeatable i = true) (s t : State T)
    (h : s.after [(e, i)] = some t) :
    t.after [(e, i)] = some t ∧ (∀ x ∈ effects e i t, x ∈ effects e i s) ∧ ∀ x ∈ effects e i t, weighty x = false := by
  have hok : (runArm i e ⟨s, []⟩).1 = .ok true ∧ (runArm i e ⟨s, []⟩).2.st = t := by
    unfold State.after at h
    split at h
    · rename_i w hw
      rw [hw]
      simp only [State.after, Option.some.injEq] at h
      exact ⟨rfl, h⟩
    · cases h
  obtain ⟨h1, h2⟩ := hok
  subst h2
  obtain ⟨g1, g2, g3, g4⟩ := Rep.arm_again e i s hi h1
  refine ⟨?_, g3, g4⟩
  have hw : runArm i e ⟨(runArm i e ⟨s, []⟩).2.st, []⟩ = (.ok true, (runArm i e ⟨(runArm i e ⟨s, []⟩).2.st, []⟩).2) := Prod.ext g1 rfl
  unfold State.after
  rw [hw]
  simp only [State.after, g2]

/-- **C69, histories.** Let messages arrive as often as you like, one after the other: the node ends in the same state (or
ends as well), and sends the same votes, proposals and chokes, writes the same log records, commits the same blocks, asks for
the same blocks and reports the same view changes, in the same order; everything else it does (certificates sent, reports to
the voting logic, checks started) it also does without the repetitions. -/
theorem C69_repetitions_change_nothing (s : State T) (ins ins' : List (Env T × Input T)) (h : Repeats ins ins') :
    s.after ins' = s.after ins ∧ (s.trace ins').filter weighty = (s.trace ins).filter weighty ∧
      ∀ x ∈ s.trace ins', x ∈ s.trace ins := Rep.run_repeats h s

theorem proper_repeats {ins ins' : List (Env T × Input T)} (h : Repeats ins ins') (hp : ProperHistory ins) : ProperHistory ins' := by
  obtain ⟨h1, h2, _, _⟩ := Rep.repeats_mem h
  refine ⟨fun p hp' => hp.1 p (h1 p hp'), fun p hp' => ?_⟩
  rcases h2 p hp' with h3 | h3
  · exact hp.2 p h3
  · intro he; rw [he] at h3; cases h3

/-- **C69, with random hash tables.** Repetitions change nothing either if hash tables are iterated in another order at each of
them (up to the order of voters in choke certificates, C68). -/
theorem C69_repetitions_in_any_order (a : Address) (initHeight interval : Nat) (l : List Node) (hl : ProperList l)
    (ins mid ins' : List (Env T × Input T)) (h : Repeats ins mid) (hs : SameInputs mid ins') (hp : ProperHistory ins) :
    SameEnd ((State.new a initHeight interval l).after ins) ((State.new a initHeight interval l).after ins') ∧
      (((State.new a initHeight interval l).trace ins').filter plain).filter weighty =
        (((State.new a initHeight interval l).trace ins).filter plain).filter weighty := by
  obtain ⟨h1, h2, _⟩ := C69_repetitions_change_nothing (State.new a initHeight interval l) ins mid h
  have hp' := proper_repeats h hp
  refine ⟨?_, ?_⟩
  · rw [← h1]
    exact (C68_seeds_do_not_matter a initHeight interval l hl mid ins' hs hp').1
  · rw [← C68_same_decisions a initHeight interval l hl mid ins' hs hp', List.filter_filter, List.filter_filter]
    have : ∀ L : List (Effect T), L.filter (fun x => weighty x && plain x) = (L.filter weighty).filter plain := by
      intro L
      rw [List.filter_filter]
      exact List.filter_congr fun x _ => Bool.and_comm _ _
    rw [this, this, h2]

section
open SeedDemo StDemo

/-- The example history of C68 with its prevotes and chokes repeated. -/
def noisy : List (Env C × Input C) :=
  (ins .same).flatMap fun p => if repeatable p.2 then [p, p, p] else [p]

theorem noisy_repeats : Repeats (ins .same) noisy := by
  have : ∀ l : List (Env C × Input C), Repeats l (l.flatMap fun p => if repeatable p.2 then [p, p, p] else [p]) := by
    intro l
    induction l with
    | nil => exact .nil
    | cons p l ih =>
      simp only [List.flatMap_cons]
      by_cases hp : repeatable p.2 = true
      · rw [if_pos hp]
        exact .again p hp (.again p hp (.cons p ih))
      · rw [if_neg hp]
        exact .cons p ih
  exact this _

/-- The hypotheses are met: 14 inputs become 36; the node ends at height 9 having done 13 things in the first run and 15 in the
second, six of which are weighty in both. -/
example : (ins .same).length = 14 ∧ noisy.length = 36 ∧ (st0.after noisy).map State.height = some 9 ∧
    (st0.trace (ins .same)).length = 13 ∧ (st0.trace noisy).length = 15 ∧
    ((st0.trace noisy).filter weighty).length = 6 :=
  ⟨by decide +kernel, by decide +kernel, by decide +kernel, by decide +kernel, by decide +kernel, by decide +kernel⟩

example : st0.after noisy = st0.after (ins .same) := (C69_repetitions_change_nothing st0 _ _ noisy_repeats).1

/-- A node at height 8 that gets three prevotes of round 1 while in round 0 and then goes to round 1; at last a copy of the third
prevote arrives. -/
def late : List (Env C × Input C) :=
  [.start, .verified (.richStatus ⟨8, none, none, nodes⟩),
    .verified (.signedVote (vote 2 8 1 .prevote [9])), .verified (.signedVote (vote 3 8 1 .prevote [9])),
    .verified (.signedVote (vote 4 8 1 .prevote [9])),
    .verified (.signedChoke (choke 3 8 0 (.precommitQC mockInitQc))), .verified (.signedChoke (choke 2 8 0 (.precommitQC mockInitQc))),
    .verified (.signedChoke (choke 4 8 0 (.precommitQC mockInitQc))), .event (.newRoundInfo 8 1 none none (.chokeQC 0) none none),
    .verified (.signedVote (vote 4 8 1 .prevote [9]))].map fun i => (env .same, i)

/-- **C69, what is needed.** That the copy comes right after the message matters: a copy that comes later, when the node has
entered the round of the vote, makes it count the votes and broadcast a certificate it would not have broadcast then. -/
theorem C69_late_copy_can_help :
    Input.verified (.signedVote (vote 4 8 1 .prevote [9])) ∈ (late.dropLast).map Prod.snd ∧
    late.getLast?.map Prod.snd = some (.verified (.signedVote (vote 4 8 1 .prevote [9]))) ∧
    (∀ q, Effect.broadcast (.aggregatedVote q) ∉ st0.trace late.dropLast) ∧
    (∃ q, Effect.broadcast (.aggregatedVote q) ∈ st0.trace late) := by
  refine ⟨by simp [late], by simp [late], ?_, ?_⟩
  · have hd : (st0.trace late.dropLast).all (fun x => match x with
        | .broadcast (.aggregatedVote _) => false
        | _ => true) = true := by decide +kernel
    intro q hq
    exact absurd (List.all_eq_true.mp hd _ hq) (by simp)
  · have hd : (st0.trace late).any (fun x => match x with
        | .broadcast (.aggregatedVote _) => true
        | _ => false) = true := by decide +kernel
    obtain ⟨x, hx, hq⟩ := List.any_eq_true.mp hd
    split at hq
    · exact ⟨_, hx⟩
    · cases hq

end

end Overlord
