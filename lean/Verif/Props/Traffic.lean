import Verif.Proofs.Cost
import Verif.Proofs.NodeRestart
import Verif.Proofs.MicroRun2
import Verif.Props.Node

/-!
# C60: a node does a bounded amount of work for each thing it takes up
-/

set_option linter.unusedSimpArgs false
set_option linter.unusedVariables false
set_option linter.unusedSectionVars false

namespace Overlord
open M Spec

theorem wp_of_run {T α : Type} {m : M T α} {e : Env T} {w : World T} {P : World T → Prop}
    (h : ∀ w', w' = (m e w).2 → P w') : wp m e w (fun _ w => P w) (fun _ w => P w) := by
  unfold wp
  split <;> rename_i hh <;> exact h _ (by rw [hh])

variable {T : Type} [ContentCodec T] [DecidableEq T]

/-- The price of an allowance. -/
def Price.budget (p : Price) (a : Allowance) : Nat :=
  p.o * a.sends + p.c * a.commits + p.g * a.requests + p.k * a.checks + p.s * a.saves + p.r * a.reports + p.t * a.orders

theorem cost_handleMsg {p : Price} (m : OverlordMsg T) : Cost p (p.budget (allowance (.verified m))) (handleMsg m) := by
  have h1 := cost_signedProposal (T := T) (p := p)
  have h2 := cost_aggVote (T := T) (p := p)
  have h3 := cost_signedVote (T := T) (p := p)
  have h4 := cost_signedChoke (T := T) (p := p)
  have h5 := cost_gotoNewHeight (T := T) (p := p)
  unfold handleMsg
  refine .skip .get fun s => ?_
  split
  · exact .pure _
  · cases m with
    | signedProposal x => exact .logged ((h1 _).mono (by simp [Price.budget, allowance]; omega))
    | aggregatedVote x => exact .logged ((h2 _).mono (by simp [Price.budget, allowance]))
    | signedVote x => exact .logged ((h3 _).mono (by simp [Price.budget, allowance]))
    | signedChoke x => exact .logged ((h4 _).mono (by simp [Price.budget, allowance]))
    | richStatus x => exact .logged ((h5 _).mono (by simp [Price.budget, allowance]))
    | stop =>
      refine .step (.emit _) ?_ fun _ => .modify _
      simp [Price.of, Price.budget, allowance]

/-- Sending a vote costs one message: a leader keeps its vote, and only a leader sends a certificate. -/
theorem cost_voteEvent {p : Price} (h : Hash) (ty : VoteType) (l : Option Nat) :
    Cost p (p.s + p.o + p.t) (handleVoteEvent h ty l : M T Unit) := by
  intro e w
  obtain ⟨s, l0⟩ := w
  have key : wp (handleVoteEvent h ty l : M T Unit) e ⟨s, l0⟩ (fun _ w => p.all w.log ≤ p.all l0 + (p.s + p.o + p.t))
      (fun _ w => p.all w.log ≤ p.all l0 + (p.s + p.o + p.t)) := by
    unfold handleVoteEvent signVote
    wps
    refine ⟨fun sig _ => ?_, fun _ => by omega⟩
    refine wp_saveWalLR (fun _ => by simp only; omega) (fun lock b _ _ _ => ?_) (fun lock b _ _ _ => ?_)
    · simp [Price.all, Price.of]; omega
    refine ⟨fun hlead => ?_, fun hlead => ?_⟩
    · refine wp_of_run fun w' => ?_
      have := cost_voteProcess (T := T) (p := p) ty e
      refine fun hw => hw ▸ Nat.le_trans (this _) ?_
      simp [Price.all, Price.of]; omega
    · have hf := (Bool.not_eq_true _).mp hlead
      unfold transmit voteProcess
      wps
      refine ⟨fun _ => ?_, fun hn => absurd hf hn⟩
      cases s.votes.getQcById s.height s.round ty with
      | error x => wps; simp [Price.all, Price.of]; try omega
      | ok qc =>
        dsimp only
        split <;> wps <;> (simp [Price.all, Price.of]; try omega)
  unfold wp at key
  split at key <;> rename_i hh <;> rw [hh] <;> exact key

theorem cost_event {p : Price} (ev : SMREvent) : Cost p (p.budget (allowance (T := T) (.event ev))) (handleEvent ev : M T Unit) := by
  have h1 := cost_handleNewRound (T := T) (p := p)
  have h2 := cost_voteEvent (T := T) (p := p)
  have h3 := cost_handleCommit (T := T) (p := p)
  unfold handleEvent
  cases ev with
  | newRoundInfo h r l q f a b => exact .logged ((h1 _ _ _ _).mono (by simp [Price.budget, allowance]; omega))
  | prevoteVote h r b l => exact .logged ((h2 _ _ _).mono (by simp [Price.budget, allowance]; omega))
  | precommitVote h r b l => exact .logged ((h2 _ _ _).mono (by simp [Price.budget, allowance]; omega))
  | commit h => exact .logged ((h3 _).mono (by simp [Price.budget, allowance]; omega))
  | brake h r l =>
    refine .skip .get fun _ => ?_
    split
    · exact .pure _
    · exact .logged ((cost_handleBrake _ _).mono (by simp [Price.budget, allowance]; omega))
  | stop => exact .fail _

theorem cost_arm {p : Price} (i : Input T) : Cost p (p.budget (allowance i)) (runArm i) := by
  unfold runArm
  cases i with
  | start =>
    refine .step (.logged (cost_startWithWal (T := T) (p := p))) ?_ fun _ => .pure _
    simp [Price.budget, allowance]; omega
  | raw m =>
    dsimp only
    split
    · exact .skip (.emit _) fun _ => .pure _
    · split
      · exact .fail _
      · refine .skip .get fun s => ?_
        split
        · exact .skip (.emit _) fun _ => .pure _
        · split
          · exact .skip (.emit _) fun _ => .pure _
          · exact .pure _
  | event ev =>
    refine .skip .get fun s => ?_
    split
    · exact .pure _
    · split
      · exact .pure _
      · exact .step (.logged (cost_event ev)) (Nat.le_refl _) fun _ => .pure _
  | resp r =>
    refine .skip .get fun s => ?_
    split
    · exact .pure _
    · refine .step (.logged (cost_resp r)) ?_ fun _ => .pure _
      simp [Price.budget, allowance]
  | verified m => exact .step (.logged (cost_handleMsg m)) (Nat.le_refl _) fun _ => .pure _

theorem times_cons (p : Effect T → Bool) (x : Effect T) (l : List (Effect T)) :
    times p (x :: l) = (if p x then 1 else 0) + times p l := by
  unfold times; rw [List.filter_cons]; split <;> simp; omega

theorem times_app (p : Effect T → Bool) (l m : List (Effect T)) : times p (l ++ m) = times p l + times p m := by
  simp [times]

theorem times_cut (p : Effect T → Bool) (c : Option Nat) (l : List (Effect T)) : times p (cutTo c l) ≤ times p l := by
  unfold cutTo times
  split
  · exact Nat.le_refl _
  · exact List.Sublist.length_le (List.Sublist.filter _ (List.take_sublist _ _))

/-- Counting is pricing at one. -/
theorem times_price {q : Effect T → Bool} {p : Price} (h : ∀ x, p.of x = if q x then 1 else 0) (l : List (Effect T)) :
    times q l = p.all l := by
  induction l with
  | nil => rfl
  | cons x l ih => rw [times_cons, ih]; simp [Price.all, h]

/-- **C60.** For each thing that a node takes up it does at most what `allowance` says, whatever its state, whatever the
application and the crypto library answer, and whatever the message is: it never sends more than one message, hands over
more than one block, asks for more than one block or check, or writes more than two records. -/
theorem C60_one_input (e : Env T) (i : Input T) (s : State T) : (allowance i).Covers (effects e i s) where
  sends := by
    have := (cost_arm (p := ⟨1, 0, 0, 0, 0, 0, 0⟩) i).run e s
    rw [effects, times_price (p := ⟨1, 0, 0, 0, 0, 0, 0⟩) (by intro x; cases x <;> rfl)]
    simpa [Price.budget] using this
  commits := by
    have := (cost_arm (p := ⟨0, 1, 0, 0, 0, 0, 0⟩) i).run e s
    rw [effects, times_price (p := ⟨0, 1, 0, 0, 0, 0, 0⟩) (by intro x; cases x <;> rfl)]
    simpa [Price.budget] using this
  requests := by
    have := (cost_arm (p := ⟨0, 0, 1, 0, 0, 0, 0⟩) i).run e s
    rw [effects, times_price (p := ⟨0, 0, 1, 0, 0, 0, 0⟩) (by intro x; cases x <;> rfl)]
    simpa [Price.budget] using this
  checks := by
    have := (cost_arm (p := ⟨0, 0, 0, 1, 0, 0, 0⟩) i).run e s
    rw [effects, times_price (p := ⟨0, 0, 0, 1, 0, 0, 0⟩) (by intro x; cases x <;> rfl)]
    simpa [Price.budget] using this
  saves := by
    have := (cost_arm (p := ⟨0, 0, 0, 0, 1, 0, 0⟩) i).run e s
    rw [effects, times_price (p := ⟨0, 0, 0, 0, 1, 0, 0⟩) (by intro x; cases x <;> rfl)]
    simpa [Price.budget] using this
  reports := by
    have := (cost_arm (p := ⟨0, 0, 0, 0, 0, 1, 0⟩) i).run e s
    rw [effects, times_price (p := ⟨0, 0, 0, 0, 0, 1, 0⟩) (by intro x; cases x <;> rfl)]
    simpa [Price.budget] using this
  orders := by
    have := (cost_arm (p := ⟨0, 0, 0, 0, 0, 0, 1⟩) i).run e s
    rw [effects, times_price (p := ⟨0, 0, 0, 0, 0, 0, 1⟩) (by intro x; cases x <;> rfl)]
    simpa [Price.budget] using this

/-- **C60.** A message from the network makes a node send something at once only if it is a vote, and then one message:
proposals, certificates, chokes, statuses, answers of the application and messages not yet verified send nothing. -/
theorem C60_only_votes_make_it_send (e : Env T) (i : Input T) (s : State T) (h : 0 < times outbound (effects e i s)) :
    i = .start ∨ (∃ ev, i = .event ev) ∨ ∃ sv, i = .verified (.signedVote sv) := by
  have h1 := (C60_one_input e i s).sends
  cases i with
  | start => exact .inl rfl
  | raw m => simp only [allowance] at h1; omega
  | event ev => exact .inr (.inl ⟨ev, rfl⟩)
  | resp r => simp only [allowance] at h1; omega
  | verified m =>
    cases m with
    | signedVote sv => exact .inr (.inr ⟨sv, rfl⟩)
    | _ => simp only [allowance] at h1; omega

theorem sends_event (ev : SMREvent) : (allowance (T := T) (.event ev)).sends ≤ 1 := by cases ev <;> simp [allowance]
theorem sends_msg (m : OverlordMsg T) : (allowance (T := T) (.verified m)).sends ≤ 1 := by cases m <;> simp [allowance]

/-- **C60.** Over a whole life, crashes and restarts included, a node sends at most one message for each decision of its
voting state machine that it takes up, one for each verified message and one for each start; hence messages that do not
pass verification make it send nothing. -/
theorem C60_total (a : Address) (as : List (NAct T)) {n : NodeSys T} (h : (NodeSys.new a).run a as = some n) :
    times outbound n.log ≤ as.countP isEventStep + as.countP isVerifiedStep + as.countP isStartStep := by
  suffices H : ∀ (as : List (NAct T)) (m n : NodeSys T), m.run a as = some n →
      times outbound n.log ≤ times outbound m.log + (as.countP isEventStep + as.countP isVerifiedStep + as.countP isStartStep) by
    have := H as _ _ h
    simpa [NodeSys.new, NodeSys.fresh, times] using this
  intro as
  induction as with
  | nil => intro m n h; simp only [NodeSys.run, Option.some.injEq] at h; subst h; simp
  | cons x as ih =>
    intro m n h
    simp only [NodeSys.run] at h
    split at h
    · cases h
    · rename_i m1 h1
      have h2 := ih _ _ h
      have h3 : times outbound m1.log ≤ times outbound m.log +
          ((if isEventStep x then 1 else 0) + (if isVerifiedStep x then 1 else 0) + (if isStartStep x then 1 else 0)) := by
        rcases act_log h1 with ⟨hl, _⟩ | ⟨i, e, cut, s, hl, _, hc⟩
        · rw [hl]; omega
        · have h4 := times_cut outbound cut (effects e i s)
          have h5 := (C60_one_input e i s).sends
          rw [hl, times_app]
          rw [effects] at h4 h5
          rcases hc with ⟨_, _, hi, y, n1, ht, rfl⟩ | ⟨_, rfl, p, rfl, _⟩
          · cases y with
            | raw r =>
              simp only [NodeSys.take, Option.some.injEq, Prod.mk.injEq] at ht
              obtain ⟨rfl, _⟩ := ht
              simp only [allowance] at h5; omega
            | event =>
              simp only [NodeSys.take] at ht
              split at ht
              · cases ht
              · simp only [Option.some.injEq, Prod.mk.injEq] at ht
                obtain ⟨rfl, _⟩ := ht
                have := Nat.le_trans h5 (show (allowance (T := T) (.event _)).sends ≤ 1 from sends_event _)
                simp only [isEventStep, if_true]; omega
            | resp =>
              simp only [NodeSys.take] at ht
              split at ht
              · cases ht
              · simp only [Option.some.injEq, Prod.mk.injEq] at ht
                obtain ⟨rfl, _⟩ := ht
                simp only [allowance] at h5; omega
            | verified =>
              simp only [NodeSys.take] at ht
              split at ht
              · cases ht
              · simp only [Option.some.injEq, Prod.mk.injEq] at ht
                obtain ⟨rfl, _⟩ := ht
                have := Nat.le_trans h5 (show (allowance (T := T) (.verified _)).sends ≤ 1 from sends_msg _)
                simp only [isVerifiedStep, if_true]; omega
          · simp only [allowance] at h5
            simp only [isStartStep, if_true]; omega
      simp only [List.countP_cons]
      omega

/-! ### The allowances are used up -/

namespace TrafficDemo
open StDemo

/-- Validator 1 after the votes of three others for the block of round 0 of height 7, and what it does for each input:
the third vote makes it broadcast one certificate. -/
example : (times outbound (effects env (.verified (.signedVote (vote 4 7 0 .prevote [5])))
    (next env (.verified (.signedVote (vote 3 7 0 .prevote [5])))
      (next env (.verified (.signedVote (vote 2 7 0 .prevote [5]))) st0)))) = 1 := by decide +kernel

/-- A leader that enters a new round asks for a block, saves, sends one proposal, has the block checked and orders its
voting state machine to vote. -/
example :
    let l := effects env (.event (.newRoundInfo 7 3 none none (.precommitQC 0) none none))
      (next env (.verified (.aggregatedVote (cert [2, 3, 4] 7 0 .precommit []))) st0)
    times outbound l = 1 ∧ times isGetBlock l = 1 ∧ times isSave l = 1 ∧ times isCheck l = 1 ∧ times isReport l = 1 ∧
      times isTrigger l = 1 := by decide +kernel

/-- A whole life in which the bound of `C60_total` is met by two decisions and a restart. -/
example : (match (NodeSys.new [1]).run [1] (life none) with
    | some n => decide (times outbound n.log = 2 ∧ (life none).countP isEventStep + (life none).countP isVerifiedStep +
        (life none).countP isStartStep = 7)
    | none => false) = true := by decide +kernel

end TrafficDemo

end Overlord
