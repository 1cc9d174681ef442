import Verif.Props.State4

/-!
# C40, C42, C46: view change reports, stop, restart
-/

set_option linter.unusedSimpArgs false
set_option linter.unusedVariables false
set_option linter.unusedSectionVars false
set_option linter.unnecessarySeqFocus false

namespace Overlord
open M Spec

variable {T : Type} [ContentCodec T] [DecidableEq T]

/-! ## C40 — view changes are reported exactly once with the right data -/

omit [ContentCodec T] [DecidableEq T] in
theorem reports_append (a b : List (Effect T)) : reports (a ++ b) = reports a ++ reports b :=
  List.filterMap_append ..

theorem viewChangeReason_ok (s : State T) (f : FromWhere) : LeftBecause s f (s.viewChangeReason s.round f) := by
  unfold State.viewChangeReason
  by_cases hr : s.round = f.getRound
  · simp only [ne_eq, hr, not_true_eq_false, if_false]
    rw [← hr]
    cases hl : s.isLeader with
    | true =>
      simp only [if_true]
      cases hq : s.votes.getQcById s.height s.round .prevote with
      | error x => simp [LeftBecause, hr, hl, hq]; rw [← hr, hq]; simp
      | ok qc =>
        dsimp only
        by_cases hb : qc.blockHash = []
        · simp [LeftBecause, hb, hl, ← hr, hq]
        · simp [LeftBecause, hb, hl, ← hr, hq]
    | false =>
      simp only [Bool.false_eq_true, if_false]
      cases hp : s.proposals.get s.height s.round with
      | error x => simp [LeftBecause, hl, ← hr, hp]
      | ok sp =>
        dsimp only
        cases hf : s.isFullTransaction.get? sp.proposal.blockHash with
        | none => simp [LeftBecause, hl, ← hr, hp, hf]
        | some b =>
          dsimp only
          cases hq : s.votes.getQcById s.height s.round .prevote with
          | error x => simp [LeftBecause, hl, ← hr, hp, hf, hq]
          | ok qc =>
            dsimp only
            cases hq' : s.votes.getQcById s.height s.round .precommit with
            | error x => simp [LeftBecause, hl, ← hr, hp, hf, hq, hq']
            | ok qc' => simp [LeftBecause, hl, ← hr, hp, hf, hq, hq']
  · rw [if_pos hr]
    cases f <;> simp only [FromWhere.getRound] at hr <;>
      simp [FromWhere.toReason, LeftBecause, Ne.symm (show s.round ≠ _ from hr)]

theorem quiet_proposal {e : Env T} {s : State T} {l : List (Effect T)} {R} {sp : SignedProposal T}
    (h : reports l = R) : wp (handleSignedProposal sp) e ⟨s, l⟩ (fun _ w => reports w.log = R)
      (fun _ w => reports w.log = R) := by
  unfold handleSignedProposal verifyProposer verifyAddress filterSignedProposal checkBlock
  wps
  refine ⟨fun hc => ⟨fun p hp => ⟨fun _ => h, fun hp' => ?_⟩, fun _ _ => h⟩, fun _ => h⟩
  refine ⟨fun _ => by simp [h], fun hf => ⟨fun hl => ⟨fun ps hps => by simp [h], fun _ _ => h⟩, fun hl => ?_⟩⟩
  simp only [Bool.false_eq_true, false_implies, not_false_eq_true, true_implies, true_and]
  refine ⟨fun ps hps => ?_, fun _ _ => h⟩
  simp [reports_append, h]
  simp [reports]

/-- Moving to a non-zero round reports exactly one view change: the node's height, the round it leaves and a
reason that fits. Moving to round 0 reports none. -/
theorem C40_one_report (e : Env T) (s : State T) (h r : Nat) (lr : Option Nat) (lp : Option Hash) (f : FromWhere)
    (ni : Option Nat) (nc : Option DurationConfig) (hp : s.consensusPower = true) (hs : s.stopped = false) :
    (r ≠ 0 → ∃ reason, reports (effects e (.event (.newRoundInfo h r lr lp f ni nc)) s) =
      [(s.height, s.round, reason)] ∧ LeftBecause s f reason) ∧
    (r = 0 → reports (effects e (.event (.newRoundInfo h r lr lp f ni nc)) s) = []) := by
  have : wp (runArm (.event (.newRoundInfo h r lr lp f ni nc))) e ⟨s, []⟩
      (fun _ w => reports w.log = if r = 0 then [] else [(s.height, s.round, s.viewChangeReason s.round f)])
      (fun _ w => reports w.log = if r = 0 then [] else [(s.height, s.round, s.viewChangeReason s.round f)]) := by
    unfold runArm handleEvent
    wps
    refine ⟨fun h1 => by simp [hs] at h1, fun _ => ⟨fun h1 => by simp [hp] at h1, fun _ => ?_⟩⟩
    suffices hsuf : ∀ l R, reports l = R → wp (do
        modify fun s => { s with round := r, isLeader := false }
        if lr.isSome ≠ lp.isSome then fail .proposalErr
        else
          setUpdateFrom f
          saveWalWithLockRound .propose lr
          if (← isProposer) = false then
            let s ← get
            match s.proposals.get s.height s.round with
            | .ok sp => handleSignedProposal sp
            | .error _ => pure ()
          else
            modify fun s => { s with isLeader := true }
            let (block, hash, polc) ← proposalParts lr lp
            modify fun s => { s with hashWithBlock :=
              match s.hashWithBlock.get? hash with
              | some _ => s.hashWithBlock
              | none => s.hashWithBlock.insert hash block }
            let s ← get
            let sp ← signProposal { height := s.height, round := s.round, content := block,
                                    blockHash := hash, lock := polc, proposer := s.address }
            broadcast (.signedProposal sp)
            emit (.trigger (stTrigger .proposal hash lr s.round s.height))
            checkBlock hash block : M T Unit) e ⟨s, l⟩ (fun _ w => reports w.log = R) (fun _ w => reports w.log = R) by
      have fin : ∀ w : World T, reports w.log = (if r = 0 then [] else [(s.height, s.round, s.viewChangeReason s.round f)]) →
        ∀ x : Err, (x = .panic → (True → reports w.log = (if r = 0 then [] else [(s.height, s.round, s.viewChangeReason s.round f)])) ∧
          (Err.panic ≠ .panic → reports w.log = (if r = 0 then [] else [(s.height, s.round, s.viewChangeReason s.round f)]))) ∧
          (x ≠ .panic → reports w.log = (if r = 0 then [] else [(s.height, s.round, s.viewChangeReason s.round f)])) := by
        intro w hw x; exact ⟨fun _ => ⟨fun _ => hw, fun _ => hw⟩, fun _ => hw⟩
      unfold handleNewRound reportViewChange
      rw [wp_bind, wp_get]
      dsimp only
      rw [wp_ite]
      refine ⟨fun hr => ?_, fun hr => ?_⟩
      · rw [wp_bind, wp_bind, wp_get, wp_emit]
        exact wp_mono (hsuf _ _ (by simp [reports, show ¬ r = 0 from hr])) (fun _ w h => h) (fun x w h => fin w h x)
      · exact wp_mono (hsuf _ _ (by simp [reports, show r = 0 from Decidable.not_not.1 hr])) (fun _ w h => h) (fun x w h => fin w h x)
    intro l R hR
    wps
    refine ⟨fun _ => hR, fun _ => ?_⟩
    refine wp_setUpdateFrom (fun _ => hR) fun u hu => ?_
    refine wp_saveWalLR (fun _ => hR) (fun lock b _ _ _ => by simp [reports_append, hR]; rfl) (fun lock b _ _ _ => ?_)
    have hR1 : reports (l ++ [.saveWal (walRec ({ s with round := r, isLeader := false, updateFrom := u } : State T) .propose lock) true]) = R := by
      rw [reports_append, hR]; simp [reports]
    refine wp_isProposer (fun _ => hR1) fun p hp => ?_
    refine ⟨fun _ => ?_, fun _ => ?_⟩
    · split
      · exact quiet_proposal hR1
      · exact hR1
    · unfold proposalParts
      cases lr with
      | none =>
        wps [signProposal, broadcast, checkBlock]
        refine ⟨fun bh hbh => ?_, fun _ => by rw [reports_append, hR1]; simp [reports]⟩
        obtain ⟨block, hash⟩ := bh
        wps [signProposal, broadcast, checkBlock]
        refine ⟨fun b hb => ⟨fun sig hsig => ?_, fun _ => ?_⟩, fun _ => ?_⟩ <;>
          simp [reports_append, hR] <;> simp [reports]
      | some k =>
        wps [signProposal, broadcast, checkBlock]
        refine ⟨fun hash hlp => ⟨fun b hget => ?_, fun _ => hR1⟩, fun _ => hR1⟩
        split
        · wps [signProposal, broadcast, checkBlock]
          refine ⟨fun b hb => ⟨fun sig hsig => ?_, fun _ => ?_⟩, fun _ => ?_⟩ <;>
            simp [reports_append, hR] <;> simp [reports]
        · exact hR1
  have := wp_post this
  refine ⟨fun hr => ⟨_, ?_, viewChangeReason_ok s f⟩, fun hr => ?_⟩
  · rw [if_neg hr] at this; exact this
  · rw [if_pos hr] at this; exact this

/-- No other input reports a view change. -/
theorem C40_no_other_report (e : Env T) (s : State T) (i : Input T)
    (hi : ∀ h r lr lp f ni nc, i ≠ .event (.newRoundInfo h r lr lp f ni nc)) : reports (effects e i s) = [] := by
  rw [reports, List.filterMap_eq_nil_iff]
  intro x hx
  obtain ⟨s1, eff, s2, _, hm, hx⟩ := arm_effect (P := fun _ => True) trivial (fun _ _ _ _ _ => trivial) hx
  cases hm with
  | enterRound round lr lp f h =>
    obtain ⟨h, ni, nc, h⟩ := h
    exact absurd h (hi _ _ _ _ _ _ _)
  | castVote => cases hl : s1.isLeader <;> simp [hl] at hx <;> rcases hx with rfl | rfl <;> rfl
  | adopt =>
    simp only [List.cons_append, List.mem_cons, List.mem_append, List.mem_map, List.mem_singleton,
      List.not_mem_nil, or_false] at hx
    rcases hx with rfl | ⟨_, _, rfl⟩ | rfl <;> rfl
  | _ =>
    simp only [List.mem_cons, List.not_mem_nil, or_false, false_or] at hx
    try first
      | (subst hx; rfl)
      | (rcases hx with rfl | rfl <;> rfl)
      | (rcases hx with rfl | rfl | rfl <;> rfl)

namespace StDemo

example : reports (effects env (.event (.newRoundInfo 7 2 none none (.chokeQC 1) none none)) st0) =
    [(7, 0, .updateFromHigherChokeQC 0 1)] ∧
    reports (effects env (.event (.newRoundInfo 7 1 none none (.precommitQC 0) none none)) st0) =
    [(7, 0, .noProposalFromNetwork)] ∧
    st0.consensusPower = true ∧ st0.stopped = false := by decide +kernel

end StDemo

/-! ## C42 — stop -/

/-- **C42 is false**: a `Stop` message that arrives from the handler panics the node's main task, in every
state. -/
theorem C42_stop_panics_counterexample (e : Env T) (s : State T) :
    (runArm (.raw .stop) e ⟨s, []⟩).1 = .error .panic := rfl

/-- What the rest of the code does: if `Stop` reached the handler of verified messages (no code puts it there), the
voting state machine would be told once, and with its next event the loop would end without doing anything. -/
theorem C42_stop_partial (e e' : Env T) (s : State T) (ev : SMREvent) (hp : s.consensusPower = true) :
    let s' := next e (.verified .stop) s
    effects e (.verified .stop) s = [.trigger (stTrigger .stop [] none s.round s.height)] ∧ s'.stopped = true ∧
    (runArm (.event ev) e' ⟨s', []⟩).1 = .ok false ∧ next e' (.event ev) s' = s' ∧ effects e' (.event ev) s' = [] := by
  have h1 : runArm (.verified .stop) e ⟨s, []⟩ =
      (.ok true, ⟨{ s with stopped := true }, [.trigger (stTrigger .stop [] none s.round s.height)]⟩) := by
    have : ¬ (s.consensusPower = false ∧ (OverlordMsg.stop : OverlordMsg T).isRichStatus = false) := by simp [hp]
    show M.bind (logged (handleMsg .stop)) _ e ⟨s, []⟩ = _
    unfold handleMsg
    simp only [M.bind, logged, bind, M.get, if_neg this, M.emit, M.modify]
    rfl
  unfold next effects
  rw [h1]
  refine ⟨rfl, rfl, rfl, rfl, rfl⟩

example : StDemo.st0.consensusPower = true := rfl

/-- No message of the network or of the other queues stops the node: `stopped` is set by a verified `Stop` only. -/
theorem C42_only_stop_stops (e : Env T) (i : Input T) (s : State T) (hi : i ≠ .verified .stop) :
    (next e i s).stopped = s.stopped := by
  refine arm_state_inv (P := fun s' => s'.stopped = s.stopped) rfl ?_
  intro s' eff s'' hp hm
  cases hm with
  | stop h => exact absurd h hi
  | _ => exact hp

/-! ## C46 — restart never goes behind the starting height -/

/-- If the WAL is empty or its record is not behind the starting height, a node never proposes, votes, chokes or
commits for a lower height. (The hypothesis is what is missing from the code, see
`C46_restart_behind_counterexample`.) -/
theorem C46_never_behind_partial (addr : Address) (h0 interval : Nat) (l : List Node) (e0 : Env T)
    (ins : List (Env T × Input T))
    (hw : ∀ b w, e0.walLoad = some (some b) → decWalInfo b = .ok (w : WalInfo T) → h0 ≤ w.height)
    (hi : ∀ e i, (e, i) ∈ ins → i ≠ .start) :
    ∀ x ∈ (State.new addr h0 interval l : State T).trace ((e0, .start) :: ins), ∀ k, aboutHeight x = some k → h0 ≤ k := by
  have eff_ok : ∀ {e : Env T} {i : Input T} {s eff s'}, Micro e i s eff s' → h0 ≤ s.height →
      ∀ x ∈ eff, ∀ k, aboutHeight x = some k → h0 ≤ k := by
    intro e i s eff s' hm hs x hx k hk
    cases hm with
    | castVote ty hash lr lock sv hsv hi hl hv =>
      cases hld : s.isLeader <;> simp [hld] at hx <;> rcases hx with rfl | rfl <;>
        simp [aboutHeight, releasedVote, releasedChoke, hv] at hk <;> omega
    | castChoke sc lr lock hsv hi hl hc =>
      simp at hx; rcases hx with rfl | rfl <;> simp [aboutHeight, releasedVote, releasedChoke, hc] at hk; omega
    | propose sp r lr lp f hi hr hl hh =>
      simp at hx; rcases hx with rfl | rfl | rfl <;> simp [aboutHeight, releasedVote, releasedChoke, hh] at hk; omega
    | commit => simp at hx; rcases hx with rfl | rfl <;> simp [aboutHeight, releasedVote, releasedChoke] at hk; omega
    | enterRound => split at hx <;> simp at hx; subst hx; simp [aboutHeight, releasedVote, releasedChoke] at hk
    | adopt =>
      simp only [List.cons_append, List.mem_cons, List.mem_append, List.mem_map, List.mem_singleton,
        List.not_mem_nil, or_false] at hx
      rcases hx with rfl | ⟨_, _, rfl⟩ | rfl <;> simp [aboutHeight, releasedVote, releasedChoke] at hk
    | _ =>
      simp only [List.mem_cons, List.not_mem_nil, or_false, false_or] at hx
      try first
        | (subst hx; simp [aboutHeight, releasedVote, releasedChoke] at hk)
        | (rcases hx with rfl | rfl <;> simp [aboutHeight, releasedVote, releasedChoke] at hk)
  have arm : ∀ (e : Env T) (i : Input T) (s : State T), h0 ≤ s.height →
      (∀ b w, i = .start → e.walLoad = some (some b) → decWalInfo b = .ok (w : WalInfo T) → h0 ≤ w.height) →
      h0 ≤ (next e i s).height ∧ ∀ x ∈ effects e i s, ∀ k, aboutHeight x = some k → h0 ≤ k := by
    intro e i s hs hst
    have mono : ∀ s eff s', h0 ≤ s.height → Micro e i s eff s' → h0 ≤ s'.height := by
      intro s eff s' hp hm
      cases hm with
      | move st _ hh => exact Nat.le_trans hp (Nat.le_of_lt hh)
      | moveLost st _ _ hh => exact Nat.le_trans hp (Nat.le_of_lt hh)
      | adopt st _ _ hh => exact Nat.le_trans hp (Nat.le_of_lt hh)
      | restorePos w b h hl hd => exact hst b w h hl hd
      | _ => exact hp
    refine ⟨arm_state_inv (P := fun s' => h0 ≤ s'.height) hs mono, fun x hx => ?_⟩
    obtain ⟨s1, eff, s2, h1, hm, hx⟩ := arm_effect (P := fun s' => h0 ≤ s'.height) hs mono hx
    exact eff_ok hm h1 x hx
  have key : ∀ (ins : List (Env T × Input T)) (s : State T), h0 ≤ s.height →
      (∀ e i, (e, i) ∈ ins → ∀ b w, i = .start → e.walLoad = some (some b) → decWalInfo b = .ok (w : WalInfo T) →
        h0 ≤ w.height) → ∀ x ∈ s.trace ins, ∀ k, aboutHeight x = some k → h0 ≤ k := by
    intro ins
    induction ins with
    | nil => intro s _ _; simp [State.trace]
    | cons a ins ih =>
      obtain ⟨e, i⟩ := a
      intro s hs hst x hx
      have h1 := arm e i s hs (hst e i (by simp))
      unfold State.trace at hx
      unfold next effects at h1
      split at hx
      · rename_i w hw'
        rw [hw'] at h1
        rcases List.mem_append.1 hx with hx | hx
        · exact h1.2 x hx
        · exact ih w.st h1.1 (fun e i h => hst e i (by simp [h])) x hx
      · rename_i r w _ hw'
        rw [hw'] at h1
        exact h1.2 x hx
  refine key _ _ (Nat.le_refl _) ?_
  intro e i hmem b w he hl hd
  rcases List.mem_cons.1 hmem with h | h
  · cases h; exact hw b w hl hd
  · exact absurd he (hi e i h)

namespace StDemo

/-- The log of a node that was stopped at height 7, round 0 after its prevote. -/
def oldWal : WalInfo C := { height := 7, round := 0, step := .prevote, lock := none, «from» := .precommitQC mockInitQc }
def envOld : Env C := { env with walLoad := some (encWalInfo oldWal) }

/-- **C46 is false**: a node started with height 100 and an old log takes part at height 7. -/
theorem C46_restart_behind_counterexample :
    ((State.new [1] 100 3000 nodes : State C).after [(envOld, .start)]).map State.height = some 7 ∧
    .transmit [2] (.signedVote (vote 1 7 0 .precommit [])) ∈
      (State.new [1] 100 3000 nodes : State C).trace
        [(envOld, .start), (env, .event (.precommitVote 7 0 [] none))] := by
  decide +kernel

example : (∀ b w, env.walLoad = some (some b) → decWalInfo b = .ok (w : WalInfo C) → 7 ≤ w.height) ∧
    ((st0.trace [(env, .start), (env, .event (.prevoteVote 7 0 [5] none))]).map aboutHeight) = [none, none, some 7] := by
  refine ⟨by simp [env], by decide +kernel⟩

end StDemo

end Overlord
