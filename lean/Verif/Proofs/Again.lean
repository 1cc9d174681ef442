import Verif.Proofs.MicroRun
import Verif.Proofs.Collection
import Verif.Spec.Again
import Verif.Spec.State

/-! C69: repeated messages. -/

set_option linter.unusedSimpArgs false
set_option linter.unusedSectionVars false
set_option linter.unusedTactic false
set_option linter.unreachableTactic false

namespace Overlord.Rep
open Spec M

variable {T : Type}

section maps
variable {K V : Type} [DecidableEq K]

theorem insert_self (m : AMap K V) (k : K) (v : V) (h : m.get? k = some v) : m.insert k v = m := by
  induction m with
  | nil => simp at h
  | cons p m ih =>
    obtain ⟨k', v'⟩ := p
    by_cases hk : k' = k
    · subst hk
      simp only [AMap.get?, if_pos, Option.some.injEq] at h
      subst h
      simp [AMap.insert]
    · simp only [AMap.get?, hk, if_false] at h
      simp only [AMap.insert, hk, if_false, List.cons.injEq, true_and]
      exact ih h

theorem insert_insert (m : AMap K V) (k : K) (v w : V) : (m.insert k v).insert k w = m.insert k w := by
  induction m with
  | nil => simp [AMap.insert]
  | cons p m ih =>
    obtain ⟨k', v'⟩ := p
    by_cases hk : k' = k
    · subst hk; simp [AMap.insert]
    · simp only [AMap.insert, hk, if_false, List.cons.injEq, true_and]; exact ih

end maps

theorem votes_insert_again (vs : Votes) (h : Hash) (a : Address) (sv : SignedVote) :
    (vs.insert h a sv).insert h a sv = vs.insert h a sv := by
  unfold Votes.insert
  by_cases hc : vs.byAddress.contains a = true
  · simp [hc]
  · rw [if_neg hc, if_pos]
    simp [AMap.contains]

theorem rc_insert_again (rc : RoundCollector) (h : Hash) (a : Address) (sv : SignedVote) :
    (rc.insertVote h sv a).insertVote h sv a = rc.insertVote h sv a := by
  unfold RoundCollector.insertVote
  cases sv.vote.voteType <;> simp [votes_insert_again]

theorem set_again (q : QuorumCertificate) (qc : AggregatedVote) : (q.set qc).set qc = q.set qc := by
  unfold QuorumCertificate.set
  cases qc.voteType <;> rfl

theorem insertVote_again (c : VoteCollector) (h : Hash) (a : Address) (sv : SignedVote) :
    (c.insertVote h sv a).insertVote h sv a = c.insertVote h sv a := by
  unfold VoteCollector.insertVote VoteRoundCollector.insertVote
  simp [insert_insert, rc_insert_again]

theorem setQc_again (c : VoteCollector) (qc : AggregatedVote) : (c.setQc qc).setQc qc = c.setQc qc := by
  unfold VoteCollector.setQc VoteRoundCollector.setQc
  simp [insert_insert, set_again]

theorem rc_setQc_insert (rc : RoundCollector) (h : Hash) (a : Address) (sv : SignedVote) (q : QuorumCertificate) :
    ({ rc.insertVote h sv a with qc := q } : RoundCollector).insertVote h sv a = { rc.insertVote h sv a with qc := q } := by
  unfold RoundCollector.insertVote
  cases sv.vote.voteType <;> simp [votes_insert_again]

theorem insertVote_setQc (c : VoteCollector) (h : Hash) (a : Address) (sv : SignedVote) (qc : AggregatedVote) :
    ((c.insertVote h sv a).setQc qc).insertVote h sv a = (c.insertVote h sv a).setQc qc := by
  unfold VoteCollector.insertVote VoteCollector.setQc
  refine insert_self _ _ _ ?_
  rw [AMap.get?_insert]
  by_cases hh : qc.height = sv.vote.height
  · rw [if_pos hh]
    simp only [hh, AMap.get?_insert_self, Option.getD_some, Option.some.injEq]
    unfold VoteRoundCollector.setQc VoteRoundCollector.insertVote
    simp only [VoteRoundCollector.mk.injEq, and_true]
    refine (insert_self _ _ _ ?_).symm
    rw [AMap.get?_insert]
    by_cases hr : qc.round = sv.vote.round
    · rw [if_pos hr]
      simp only [hr, AMap.get?_insert_self, Option.getD_some]
      rw [rc_setQc_insert]
    · rw [if_neg hr]
      simp only [AMap.get?_insert, if_neg hr, if_true, Option.getD_some]
      rw [rc_insert_again]
  · rw [if_neg hh]
    simp only [AMap.get?_insert, if_neg hh, AMap.get?_insert_self, Option.getD_some]
    unfold VoteRoundCollector.insertVote
    simp [insert_insert, rc_insert_again]

theorem chokes_insert_again (c : ChokeCollector) (r : Nat) (sc : SignedChoke) : (c.insert r sc).insert r sc = c.insert r sc := by
  unfold ChokeCollector.insert
  simp [insert_insert]

theorem props_insert_again [DecidableEq T] {c c' : ProposalCollector T} {h r : Nat} {sp : SignedProposal T} (hc : c.insert h r sp = .ok c') :
    c'.insert h r sp = .ok c' := by
  unfold ProposalCollector.insert at hc ⊢
  dsimp only at hc
  split at hc
  · rename_i old ho
    split at hc
    · cases hc; dsimp only; rw [ho]; simp [*]
    · cases hc
  · cases hc
    simp

theorem count_setQc (sh : Shuffle) (au : Authority) (c : VoteCollector) (qc : AggregatedVote) (h r : Nat) (ty : VoteType) :
    countingVote sh au (c.setQc qc) h r ty = countingVote sh au c h r ty := by
  unfold countingVote
  rw [getVoteMap_pool, getVoteMap_pool, poolD_setQc]

theorem getVotes_setQc (sh : Shuffle) (c : VoteCollector) (qc : AggregatedVote) (h r : Nat) (ty : VoteType) (b : Hash) :
    (c.setQc qc).getVotes sh h r ty b = c.getVotes sh h r ty b := by
  rw [getVotes_pool, getVotes_pool, poolD_setQc]

/-! ## Handlers -/

/-- Done again after effects `f`, `m` changes nothing and does nothing new. -/
def Again (m : M T Unit) (e : Env T) (f : List (Effect T)) (s : State T) : Prop :=
  ∀ l, wp m e ⟨s, l⟩ (fun _ w => w.st = s ∧ ∃ g, w.log = l ++ g ∧ g ⊆ f ∧ ∀ x ∈ g, weighty x = false)
    (fun y w => y ≠ .panic ∧ w.st = s ∧ ∃ g, w.log = l ++ g ∧ g ⊆ f ∧ ∀ x ∈ g, weighty x = false)

/-- Repeating `m` changes nothing. -/
def Idem (m : M T Unit) : Prop :=
  ∀ e s l, wp m e ⟨s, l⟩ (fun _ w => ∃ f, w.log = l ++ f ∧ Again m e f w.st)
    (fun y w => y ≠ .panic → ∃ f, w.log = l ++ f ∧ Again m e f w.st)

theorem idem_logged {m : M T Unit} (h : Idem m) : Idem (logged m) := by
  intro e s l
  have ag : ∀ {f s}, Again m e f s → Again (logged m) e f s := by
    intro f s ha l'
    rw [wp_logged]
    refine wp_mono (ha l') (fun _ _ h => h) fun x w hx => ⟨fun hp => absurd hp hx.1, fun _ => hx.2⟩
  rw [wp_logged]
  refine wp_mono (h e s l) (fun _ w ⟨f, h1, h2⟩ => ⟨f, h1, ag h2⟩) fun x w hx => ⟨fun _ hp => absurd rfl hp, fun hne => ?_⟩
  obtain ⟨f, h1, h2⟩ := hx hne
  exact ⟨f, h1, ag h2⟩

/-- A handler described by what it returns, the state it leaves and the effects. -/
theorem idem_of {m : M T Unit} (R : Env T → State T → Except Err Unit) (N : Env T → State T → State T)
    (F : Env T → State T → List (Effect T)) (hrun : ∀ e s l, m e ⟨s, l⟩ = (R e s, ⟨N e s, l ++ F e s⟩))
    (h : ∀ e s, R e s ≠ .error .panic → N e (N e s) = N e s ∧ R e (N e s) ≠ .error .panic ∧ F e (N e s) ⊆ F e s ∧
      ∀ x ∈ F e (N e s), weighty x = false) : Idem m := by
  intro e s l
  have ag : R e s ≠ .error .panic → Again m e (F e s) (N e s) := by
    intro hr l'
    obtain ⟨h3, h4, h5, h6⟩ := h e s hr
    unfold wp
    rw [hrun, h3]
    split
    · rename_i heq
      simp only [Prod.mk.injEq] at heq
      rw [← heq.2]
      exact ⟨rfl, _, rfl, h5, h6⟩
    · rename_i y w heq
      simp only [Prod.mk.injEq] at heq
      rw [← heq.2]
      exact ⟨fun hy => h4 (by rw [heq.1, hy]), rfl, _, rfl, h5, h6⟩
  unfold wp
  rw [hrun]
  split
  · rename_i heq
    simp only [Prod.mk.injEq] at heq
    rw [← heq.2]
    exact ⟨_, rfl, ag (by rw [heq.1]; simp)⟩
  · rename_i y w heq
    simp only [Prod.mk.injEq] at heq
    rw [← heq.2]
    exact fun hy => ⟨_, rfl, ag (by rw [heq.1]; simpa using hy)⟩

theorem bind_run {α β : Type} (m : M T α) (f : α → M T β) (e : Env T) (w : World T) :
    (m >>= f) e w = match m e w with
      | (.ok a, w') => f a e w'
      | (.error x, w') => (.error x, w') := rfl
theorem get_run (e : Env T) (w : World T) : (get : M T (State T)) e w = (.ok w.st, w) := rfl
theorem pure_run {α : Type} (a : α) (e : Env T) (w : World T) : (pure a : M T α) e w = (.ok a, w) := rfl
theorem fail_run {α : Type} (x : Err) (e : Env T) (w : World T) : (fail x : M T α) e w = (.error x, w) := rfl
theorem ask_run {α : Type} (f : Env T → α) (e : Env T) (w : World T) : ask f e w = (.ok (f e), w) := rfl
theorem modify_run (f : State T → State T) (e : Env T) (w : World T) : modify f e w = (.ok (), { w with st := f w.st }) := rfl
theorem emit_run (x : Effect T) (e : Env T) (w : World T) : emit x e w = (.ok (), { w with log := w.log ++ [x] }) := rfl
theorem lift_run {α : Type} (x : Except Err α) (e : Env T) (w : World T) : lift x e w = (x, w) := rfl
theorem ite_run {α : Type} (c : Prop) [Decidable c] (a b : M T α) (e : Env T) (w : World T) :
    (if c then a else b) e w = if c then a e w else b e w := by split <;> rfl

/-- Running handlers by hand. -/
syntax "runs" ("[" Lean.Parser.Tactic.simpLemma,* "]")? : tactic
macro_rules
  | `(tactic| runs) => `(tactic| simp only [bind_run, get_run, pure_run, fail_run, ask_run, modify_run, emit_run, lift_run, ite_run])
  | `(tactic| runs [$ls,*]) => `(tactic| simp only [bind_run, get_run, pure_run, fail_run, ask_run, modify_run, emit_run, lift_run, ite_run, $ls,*])

/-- The certificate is kept. -/
def keepsQc (qc : AggregatedVote) (s : State T) : Prop :=
  ¬ qc.height < s.height ∧ (qc.height > s.height → (s.height + FUTURE_HEIGHT_GAP) % U64 > qc.height ∧ qc.round < FUTURE_ROUND_GAP) ∧
    (¬ qc.height > s.height → ¬ (qc.voteType = .prevote ∧ qc.round < s.round) ∧ ¬ (qc.voteType = .precommit ∧ qc.blockHash = [] ∧ qc.round < s.round))

/-- The voting logic is told. -/
def tellsQc (qc : AggregatedVote) (s : State T) : Prop :=
  keepsQc qc s ∧ ¬ qc.height > s.height ∧ ¬ (qc.blockHash ≠ [] ∧ s.tryGetFullTxs qc.blockHash = false)

open Classical in
theorem run_aggregatedVote (qc : AggregatedVote) (e : Env T) (s : State T) (l : List (Effect T)) :
    handleAggregatedVote qc e ⟨s, l⟩ = (.ok (), ⟨if keepsQc qc s then { s with votes := s.votes.setQc qc } else s,
      l ++ if tellsQc qc s then [.trigger (stTrigger qc.voteType.toTrigger qc.blockHash none qc.round qc.height)] else []⟩) := by
  unfold handleAggregatedVote
  by_cases h1 : qc.height < s.height
  · runs; simp [keepsQc, tellsQc, h1]
  by_cases h2 : qc.height > s.height
  · by_cases h3 : (s.height + FUTURE_HEIGHT_GAP) % U64 > qc.height ∧ qc.round < FUTURE_ROUND_GAP
    · runs; simp [keepsQc, tellsQc, h1, h2, h3]
    · runs; simp [keepsQc, tellsQc, h1, h2, h3]
  by_cases h4 : qc.voteType = .prevote ∧ qc.round < s.round
  · runs; simp [keepsQc, tellsQc, h1, h2, h4]
  by_cases h5 : qc.voteType = .precommit ∧ qc.blockHash = [] ∧ qc.round < s.round
  · runs; simp [keepsQc, tellsQc, h1, h2, h4, h5]
  have hk : keepsQc qc s := ⟨h1, fun h => absurd h h2, fun _ => ⟨h4, h5⟩⟩
  by_cases h6 : qc.blockHash ≠ [] ∧ s.tryGetFullTxs qc.blockHash = false
  · have ht : ¬ tellsQc qc s := fun h => h.2.2 h6
    simp only [hk, ht, if_true, if_false]
    runs
    rw [if_neg h1, if_neg h2, if_neg h4, if_neg h5]
    rw [if_pos h6, List.append_nil]
  · have ht : tellsQc qc s := ⟨hk, h2, h6⟩
    simp only [hk, ht, if_true, if_false]
    runs
    rw [if_neg h1, if_neg h2, if_neg h4, if_neg h5]
    rw [if_neg h6]

open Classical in
theorem idem_aggregatedVote (qc : AggregatedVote) : Idem (T := T) (handleAggregatedVote qc) := by
  refine idem_of _ _ _ (fun e s l => run_aggregatedVote qc e s l) fun e s _ => ?_
  have hF : ∀ s : State T, ∀ x ∈ (if tellsQc qc s then [Effect.trigger (T := T) (stTrigger qc.voteType.toTrigger qc.blockHash none qc.round qc.height)] else []),
      weighty x = false := by
    intro s x hx
    split at hx
    · simp only [List.mem_singleton] at hx; subst hx; rfl
    · simp at hx
  by_cases hk : keepsQc qc s
  · simp only [hk, if_true]
    have hk' : keepsQc qc ({ s with votes := s.votes.setQc qc } : State T) := hk
    have ht' : tellsQc qc ({ s with votes := s.votes.setQc qc } : State T) = tellsQc qc s := rfl
    simp only [hk', if_true, setQc_again, ht']
    exact ⟨trivial, by simp, fun _ h => h, hF s⟩
  · simp only [hk, if_false]
    exact ⟨trivial, by simp, fun _ h => h, hF s⟩

/-! ## The log is only appended to -/

/-- What `m` does does not depend on the log. -/
def Framed {α : Type} (m : M T α) : Prop :=
  ∀ e s l, m e ⟨s, l⟩ = ((m e ⟨s, []⟩).1, ⟨(m e ⟨s, []⟩).2.st, l ++ (m e ⟨s, []⟩).2.log⟩)

section
variable {α β : Type}

theorem fr_pure (a : α) : Framed (T := T) (pure a) := fun e s l => by simp [pure_run]
theorem fr_fail (x : Err) : Framed (T := T) (fail x : M T α) := fun e s l => by simp [fail_run]
theorem fr_get : Framed (T := T) get := fun e s l => by simp [get_run]
theorem fr_ask (f : Env T → α) : Framed (ask f) := fun e s l => by simp [ask_run]
theorem fr_modify (f : State T → State T) : Framed (modify f) := fun e s l => by simp [modify_run]
theorem fr_emit (x : Effect T) : Framed (emit x) := fun e s l => by simp [emit_run]
theorem fr_lift (x : Except Err α) : Framed (T := T) (lift x) := fun e s l => by simp [lift_run]
theorem fr_some (x : Option α) (y : Err) : Framed (T := T) (some! x y) := fun e s l => by cases x <;> simp [some!]

theorem fr_bind {m : M T α} {f : α → M T β} (hm : Framed m) (hf : ∀ a, Framed (f a)) : Framed (m >>= f) := by
  intro e s l
  rw [bind_run, bind_run, hm e s l]
  cases h : m e ⟨s, []⟩ with
  | mk r w =>
    cases r with
    | error x => rfl
    | ok a =>
      obtain ⟨s', l'⟩ := w
      dsimp only
      rw [hf a e s' (l ++ l'), hf a e s' l', List.append_assoc]

theorem fr_ite (c : Prop) [Decidable c] {a b : M T α} (ha : Framed a) (hb : Framed b) : Framed (if c then a else b) := by
  split
  · exact ha
  · exact hb

end

theorem fr_check : Framed (T := T) checkChokeAboveThreshold := by
  unfold checkChokeAboveThreshold
  refine fr_bind fr_get fun s => ?_
  split
  · exact fr_pure _
  · refine fr_ite _ (fr_pure _) ?_
    refine fr_bind (fr_ask _) fun r => fr_bind (fr_some _ _) fun scs => ?_
    unfold aggregateSignatures
    refine fr_bind (fr_bind (fr_ask _) fun c => fr_some _ _) fun sig => ?_
    exact fr_bind (fr_modify _) fun _ => fr_emit _

theorem fr_genQc (h : Hash) (ty : VoteType) : Framed (T := T) (generateQc h ty) := by
  unfold generateQc aggregateSignatures
  exact fr_bind fr_get fun s => fr_bind (fr_ask _) fun r => fr_bind (fr_lift _) fun vs =>
    fr_bind (fr_bind (fr_ask _) fun c => fr_some _ _) fun _ => fr_pure _

theorem fr_count (ty : VoteType) : Framed (T := T) (countVotes ty) := by
  unfold countVotes
  exact fr_bind fr_get fun s => fr_bind (fr_ask _) fun r => fr_lift _

/-- From a framed handler. -/
theorem idem_fr {m : M T Unit} (hf : Framed m)
    (h : ∀ e s, (m e ⟨s, []⟩).1 ≠ .error .panic →
      (m e ⟨(m e ⟨s, []⟩).2.st, []⟩).2.st = (m e ⟨s, []⟩).2.st ∧ (m e ⟨(m e ⟨s, []⟩).2.st, []⟩).1 ≠ .error .panic ∧
      (m e ⟨(m e ⟨s, []⟩).2.st, []⟩).2.log ⊆ (m e ⟨s, []⟩).2.log ∧
      ∀ x ∈ (m e ⟨(m e ⟨s, []⟩).2.st, []⟩).2.log, weighty x = false) : Idem m :=
  idem_of (fun e s => (m e ⟨s, []⟩).1) (fun e s => (m e ⟨s, []⟩).2.st) (fun e s => (m e ⟨s, []⟩).2.log) hf h

/-- The run of a framed handler that gives `r`, changes the state to `s'` and does `f`; then once more. -/
theorem idem_cases {m : M T Unit} (hf : Framed m)
    (h : ∀ e s, ∃ r s' f, m e ⟨s, []⟩ = (r, ⟨s', f⟩) ∧ (r ≠ .error .panic → ∃ r' g, m e ⟨s', []⟩ = (r', ⟨s', g⟩) ∧ r' ≠ .error .panic ∧
      g ⊆ f ∧ ∀ x ∈ g, weighty x = false)) : Idem m := by
  refine idem_fr hf fun e s hp => ?_
  obtain ⟨r, s', f, h1, h2⟩ := h e s
  rw [h1] at hp ⊢
  obtain ⟨r', g, h3, h4, h5, h6⟩ := h2 hp
  simp only
  rw [h3]
  exact ⟨rfl, h4, h5, h6⟩

/-! ## Chokes -/

theorem idem_aggregatedChoke (ac : AggregatedChoke) : Idem (T := T) (handleAggregatedChoke ac) := by
  have hf : Framed (T := T) (handleAggregatedChoke ac) := by
    unfold handleAggregatedChoke
    exact fr_bind fr_get fun s => fr_ite _ (fr_fail _) (fr_bind (fr_modify _) fun _ => fr_emit _)
  refine idem_cases hf fun e s => ?_
  by_cases h1 : ac.voters.length * 3 ≤ s.authority.len * 2
  · have hr : ∀ s : State T, ac.voters.length * 3 ≤ s.authority.len * 2 → handleAggregatedChoke ac e ⟨s, []⟩ = (.error .brakeErr, ⟨s, []⟩) := by
      intro s h
      unfold handleAggregatedChoke
      runs
      rw [if_pos h]
    exact ⟨_, _, _, hr s h1, fun _ => ⟨_, _, hr s h1, by simp, by simp, by simp⟩⟩
  · have hr : ∀ s : State T, ¬ ac.voters.length * 3 ≤ s.authority.len * 2 → handleAggregatedChoke ac e ⟨s, []⟩ =
        (.ok (), ⟨{ s with chokes := s.chokes.setQc ac.round ac }, [.trigger (stTrigger .continueRound [] none (inc64 ac.round) s.height)]⟩) := by
      intro s h
      unfold handleAggregatedChoke
      runs
      rw [if_neg h]
      rfl
    have hs : ∀ c : ChokeCollector, (c.setQc ac.round ac).setQc ac.round ac = c.setQc ac.round ac := by
      intro c; simp [ChokeCollector.setQc, insert_insert]
    refine ⟨_, _, _, hr s h1, fun _ => ⟨.ok (), _, ?_, by simp, fun _ h => h, by simp [weighty]⟩⟩
    refine (hr { s with chokes := s.chokes.setQc ac.round ac } h1).trans ?_
    simp only [hs]

/-- Counting the chokes again gives the same. -/
theorem check_again (e : Env T) (s : State T) : ∃ r q f, checkChokeAboveThreshold e ⟨s, []⟩ =
    (r, ⟨{ s with chokes := ⟨s.chokes.chokes, q⟩ }, f⟩) ∧
    checkChokeAboveThreshold e ⟨{ s with chokes := ⟨s.chokes.chokes, q⟩ }, []⟩ = (r, ⟨{ s with chokes := ⟨s.chokes.chokes, q⟩ }, f⟩) ∧
    ∀ x ∈ f, weighty x = false := by
  have h0 : ({ s with chokes := ⟨s.chokes.chokes, s.chokes.qcs⟩ } : State T) = s := rfl
  have hm : ∀ q, (⟨s.chokes.chokes, q⟩ : ChokeCollector).maxRoundAboveThreshold s.authority.len = s.chokes.maxRoundAboveThreshold s.authority.len := fun _ => rfl
  cases hmax : s.chokes.maxRoundAboveThreshold s.authority.len with
  | none =>
    have hr : checkChokeAboveThreshold e ⟨s, []⟩ = (.ok (), ⟨s, []⟩) := by
      unfold checkChokeAboveThreshold; runs [hmax]
    exact ⟨_, s.chokes.qcs, _, hr, hr, by simp⟩
  | some round =>
    by_cases hlt : round < s.round
    · have hr : checkChokeAboveThreshold e ⟨s, []⟩ = (.ok (), ⟨s, []⟩) := by
        unfold checkChokeAboveThreshold; runs [hmax, hlt, if_true]
      exact ⟨_, s.chokes.qcs, _, hr, hr, by simp⟩
    · cases hc : s.chokes.getChokes e.sh round with
      | none =>
        have hr : checkChokeAboveThreshold e ⟨s, []⟩ = (.error .panic, ⟨s, []⟩) := by
          unfold checkChokeAboveThreshold; runs [hmax, hlt, if_false, hc, some!]
        exact ⟨_, s.chokes.qcs, _, hr, hr, by simp⟩
      | some scs =>
        cases ha : e.crypto.aggregate (scs.map SignedChoke.signature) (scs.map SignedChoke.address) with
        | none =>
          have hr : checkChokeAboveThreshold e ⟨s, []⟩ = (.error .cryptoErr, ⟨s, []⟩) := by
            unfold checkChokeAboveThreshold aggregateSignatures; runs [hmax, hlt, if_false, hc, some!, ha]
          exact ⟨_, s.chokes.qcs, _, hr, hr, by simp⟩
        | some sig =>
          have hr : ∀ q, checkChokeAboveThreshold e ⟨{ s with chokes := ⟨s.chokes.chokes, q⟩ }, []⟩ =
              (.ok (), ⟨{ s with chokes := ⟨s.chokes.chokes, q.insert round ⟨s.height, round, sig, scs.map SignedChoke.address⟩⟩ },
                [.trigger (stTrigger .continueRound [] none (inc64 round) s.height)]⟩) := by
            intro q
            have hmax' : (⟨s.chokes.chokes, q⟩ : ChokeCollector).maxRoundAboveThreshold s.authority.len = some round := hmax
            have hc' : (⟨s.chokes.chokes, q⟩ : ChokeCollector).getChokes e.sh round = some scs := hc
            unfold checkChokeAboveThreshold aggregateSignatures
            runs [hmax', hlt, if_false, hc', some!, ha]
            rfl
          refine ⟨_, _, _, hr s.chokes.qcs, ?_, by simp [weighty]⟩
          rw [hr]
          simp [insert_insert]

theorem fr_aggregatedVote (qc : AggregatedVote) : Framed (T := T) (handleAggregatedVote qc) := by
  unfold handleAggregatedVote
  exact fr_bind fr_get fun s => fr_ite _ (fr_pure _) (fr_ite _ (fr_ite _ (fr_modify _) (fr_pure _)) (fr_ite _ (fr_pure _)
    (fr_ite _ (fr_pure _) (fr_bind (fr_modify _) fun _ => fr_ite _ (fr_pure _) (fr_emit _)))))

theorem fr_aggregatedChoke (ac : AggregatedChoke) : Framed (T := T) (handleAggregatedChoke ac) := by
  unfold handleAggregatedChoke
  exact fr_bind fr_get fun s => fr_ite _ (fr_fail _) (fr_bind (fr_modify _) fun _ => fr_emit _)

theorem fr_signedChoke (sc : SignedChoke) : Framed (T := T) (handleSignedChoke sc) := by
  unfold handleSignedChoke
  refine fr_bind fr_get fun s => fr_ite _ (fr_pure _) (fr_ite _ (fr_pure _) (fr_ite _ ?_ (fr_bind (fr_modify _) fun _ => fr_check)))
  split
  · exact fr_aggregatedVote _
  · exact fr_aggregatedVote _
  · exact fr_aggregatedChoke _

/-- `Idem` for one state. -/
theorem idem_at {m : M T Unit} (h : Idem m) (e : Env T) (s : State T) (hp : (m e ⟨s, []⟩).1 ≠ .error .panic) :
    (m e ⟨(m e ⟨s, []⟩).2.st, []⟩).2.st = (m e ⟨s, []⟩).2.st ∧ (m e ⟨(m e ⟨s, []⟩).2.st, []⟩).1 ≠ .error .panic ∧
      (m e ⟨(m e ⟨s, []⟩).2.st, []⟩).2.log ⊆ (m e ⟨s, []⟩).2.log ∧
      ∀ x ∈ (m e ⟨(m e ⟨s, []⟩).2.st, []⟩).2.log, weighty x = false := by
  have h1 := wp_exists (h e s [])
  have key : ∃ f, (m e ⟨s, []⟩).2.log = [] ++ f ∧ Again m e f (m e ⟨s, []⟩).2.st := by
    rcases h1 with ⟨_, _, h1⟩ | ⟨x, hx, h1⟩
    · exact h1
    · exact h1 (fun hy => hp (by rw [hx, hy]))
  obtain ⟨f, hl, ha⟩ := key
  rw [hl]
  rcases wp_exists (ha []) with ⟨_, h3, h4, g, h5, h6, h7⟩ | ⟨y, h3, h4, h5, g, h6, h7, h8⟩
  · refine ⟨h4, by rw [h3]; simp, ?_, ?_⟩ <;> rw [h5, List.nil_append]
    · simpa using h6
    · exact h7
  · refine ⟨h5, by rw [h3]; simpa using h4, ?_, ?_⟩ <;> rw [h6, List.nil_append]
    · simpa using h7
    · exact h8

theorem idem_signedChoke (sc : SignedChoke) : Idem (T := T) (handleSignedChoke sc) := by
  refine idem_fr (fr_signedChoke sc) fun e s hp => ?_
  by_cases h1 : sc.choke.height ≠ s.height
  · have hr : handleSignedChoke sc e ⟨s, []⟩ = (.ok (), ⟨s, []⟩) := by
      unfold handleSignedChoke; runs; rw [if_pos h1]
    simp only [hr]; simp
  by_cases h2 : sc.choke.round < s.round
  · have hr : handleSignedChoke sc e ⟨s, []⟩ = (.ok (), ⟨s, []⟩) := by
      unfold handleSignedChoke; runs; rw [if_neg h1, if_pos h2]
    simp only [hr]; simp
  by_cases h3 : sc.choke.round > s.round
  · have hr : ∀ s' : State T, s'.height = s.height → s'.round = s.round → handleSignedChoke sc e ⟨s', []⟩ = (match sc.choke.from with
        | .prevoteQC qc => handleAggregatedVote qc
        | .precommitQC qc => handleAggregatedVote qc
        | .chokeQC qc => handleAggregatedChoke qc : M T Unit) e ⟨s', []⟩ := by
      intro s' e1 e2
      unfold handleSignedChoke; runs
      rw [e1, e2, if_neg h1, if_neg h2, if_pos h3]
      cases sc.choke.from <;> rfl
    rw [hr s rfl rfl] at hp ⊢
    cases hfrom : sc.choke.from with
    | prevoteQC qc =>
      simp only [hfrom] at hp hr ⊢
      have hh : ((handleAggregatedVote qc e ⟨s, []⟩).2.st).height = s.height ∧ ((handleAggregatedVote qc e ⟨s, []⟩).2.st).round = s.round := by
        rw [run_aggregatedVote]; dsimp only; split <;> exact ⟨rfl, rfl⟩
      rw [hr _ hh.1 hh.2]
      exact idem_at (idem_aggregatedVote qc) e s hp
    | precommitQC qc =>
      simp only [hfrom] at hp hr ⊢
      have hh : ((handleAggregatedVote qc e ⟨s, []⟩).2.st).height = s.height ∧ ((handleAggregatedVote qc e ⟨s, []⟩).2.st).round = s.round := by
        rw [run_aggregatedVote]; dsimp only; split <;> exact ⟨rfl, rfl⟩
      rw [hr _ hh.1 hh.2]
      exact idem_at (idem_aggregatedVote qc) e s hp
    | chokeQC qc =>
      simp only [hfrom] at hp hr ⊢
      have hh : ((handleAggregatedChoke qc e ⟨s, []⟩).2.st).height = s.height ∧ ((handleAggregatedChoke qc e ⟨s, []⟩).2.st).round = s.round := by
        unfold handleAggregatedChoke; runs; split <;> exact ⟨rfl, rfl⟩
      rw [hr _ hh.1 hh.2]
      exact idem_at (idem_aggregatedChoke qc) e s hp
  · have hr : ∀ s' : State T, s'.height = s.height → s'.round = s.round → handleSignedChoke sc e ⟨s', []⟩ =
        checkChokeAboveThreshold e ⟨{ s' with chokes := s'.chokes.insert sc.choke.round sc }, []⟩ := by
      intro s' e1 e2
      unfold handleSignedChoke; runs
      rw [e1, e2, if_neg h1, if_neg h2, if_neg h3]
    rw [hr s rfl rfl] at hp ⊢
    obtain ⟨r, q, f, g1, g2, g3⟩ := check_again e { s with chokes := s.chokes.insert sc.choke.round sc }
    simp only [g1] at hp ⊢
    rw [hr { s with chokes := ⟨(s.chokes.insert sc.choke.round sc).chokes, q⟩ } rfl rfl]
    have hi : (⟨(s.chokes.insert sc.choke.round sc).chokes, q⟩ : ChokeCollector).insert sc.choke.round sc =
        ⟨(s.chokes.insert sc.choke.round sc).chokes, q⟩ := by
      simp [ChokeCollector.insert, insert_insert]
    simp only [hi]
    rw [g2]
    exact ⟨rfl, hp, fun _ h => h, g3⟩

/-! ## Votes -/

theorem fr_signedVote (sv : SignedVote) : Framed (T := T) (handleSignedVote sv) := by
  unfold handleSignedVote
  refine fr_bind fr_get fun s => fr_ite _ (fr_pure _) ?_
  refine fr_bind ?_ fun _ => ?_
  · unfold verifyAddress
    exact fr_bind fr_get fun s => fr_ite _ (fr_pure _) (fr_fail _)
  · split
    · exact fr_pure _
    · refine fr_bind (fr_modify _) fun _ => fr_ite _ (fr_pure _) (fr_bind (fr_count _) fun o => ?_)
      cases o with
      | none => exact fr_pure _
      | some h =>
        refine fr_bind (fr_genQc _ _) fun qc => fr_bind (fr_modify _) fun _ => ?_
        unfold broadcast
        exact fr_bind (fr_emit _) fun _ => fr_ite _ (fr_pure _) (fr_emit _)

/-- Counting and making the certificate, from a state with these votes. -/
def countOut (e : Env T) (s : State T) (c : VoteCollector) (ty : VoteType) : Except Err (Option AggregatedVote) :=
  match countingVote e.sh s.authority c s.height s.round ty with
  | .error x => .error x
  | .ok none => .ok none
  | .ok (some hash) =>
    match c.getVotes e.sh s.height s.round ty hash with
    | .error x => .error x
    | .ok vs =>
      match e.crypto.aggregate ((sortVotes vs).map SignedVote.signature) ((sortVotes vs).map SignedVote.voter) with
      | none => .error .cryptoErr
      | some sig => .ok (some { signature := { signature := sig, addressBitmap := s.authority.bitmapOf ((sortVotes vs).map SignedVote.voter) },
                                voteType := ty, height := s.height, round := s.round, blockHash := hash, leader := s.address })

theorem countOut_setQc (e : Env T) (s : State T) (c : VoteCollector) (ty : VoteType) (qc : AggregatedVote) :
    countOut e s (c.setQc qc) ty = countOut e s c ty := by
  unfold countOut
  rw [count_setQc]
  cases countingVote e.sh s.authority c s.height s.round ty with
  | error x => rfl
  | ok o =>
    cases o with
    | none => rfl
    | some h => dsimp only; rw [getVotes_setQc]

/-- What a vote does: either nothing, or it is put in the pool and, if it is of the current height, the votes are counted. -/
theorem run_signedVote (sv : SignedVote) (e : Env T) (s : State T) :
    (∃ r, r ≠ .error .panic ∧ handleSignedVote sv e ⟨s, []⟩ = (r, ⟨s, []⟩)) ∨
    ((∃ x, s.votes.getQcById sv.vote.height sv.vote.round sv.vote.voteType = .error x) ∧ ¬ s.filterMessage sv.vote.height sv.vote.round = true ∧
      s.authority.contains sv.voter = true ∧
      handleSignedVote sv e ⟨s, []⟩ =
        if sv.vote.height > s.height then (.ok (), ⟨{ s with votes := s.votes.insertVote sv.vote.blockHash sv sv.voter }, []⟩)
        else match countOut e s (s.votes.insertVote sv.vote.blockHash sv sv.voter) sv.vote.voteType with
          | .error x => (.error x, ⟨{ s with votes := s.votes.insertVote sv.vote.blockHash sv sv.voter }, []⟩)
          | .ok none => (.ok (), ⟨{ s with votes := s.votes.insertVote sv.vote.blockHash sv sv.voter }, []⟩)
          | .ok (some qc) => (.ok (), ⟨{ s with votes := (s.votes.insertVote sv.vote.blockHash sv sv.voter).setQc qc },
              .broadcast (.aggregatedVote qc) :: if s.tryGetFullTxs qc.blockHash = false then [] else
                [.trigger (stTrigger sv.vote.voteType.toTrigger qc.blockHash none qc.round qc.height)]⟩)) := by
  by_cases h1 : s.filterMessage sv.vote.height sv.vote.round = true
  · exact .inl ⟨.ok (), by simp, by unfold handleSignedVote; runs; rw [if_pos h1]⟩
  by_cases h2 : s.authority.contains sv.voter = true
  swap
  · exact .inl ⟨.error .invalidAddress, by simp, by unfold handleSignedVote verifyAddress; runs; rw [if_neg h1, if_neg h2]⟩
  cases h3 : s.votes.getQcById sv.vote.height sv.vote.round sv.vote.voteType with
  | ok q =>
    refine .inl ⟨.ok (), by simp, ?_⟩
    unfold handleSignedVote verifyAddress; runs
    rw [if_neg h1, if_pos h2]
    simp only [h3]
    rfl
  | error x =>
    refine .inr ⟨⟨x, rfl⟩, h1, h2, ?_⟩
    unfold handleSignedVote verifyAddress; runs
    rw [if_neg h1, if_pos h2]
    simp only [h3]
    runs
    split
    · rfl
    unfold countVotes
    runs
    unfold countOut
    cases hc : countingVote e.sh s.authority (s.votes.insertVote sv.vote.blockHash sv sv.voter) s.height s.round sv.vote.voteType with
    | error x => rfl
    | ok o =>
      cases o with
      | none => rfl
      | some h =>
        unfold generateQc aggregateSignatures broadcast
        runs
        cases (s.votes.insertVote sv.vote.blockHash sv sv.voter).getVotes e.sh s.height s.round sv.vote.voteType h with
        | error x => rfl
        | ok vs =>
          dsimp only
          cases e.crypto.aggregate ((sortVotes vs).map SignedVote.signature) ((sortVotes vs).map SignedVote.voter) with
          | none => rfl
          | some sig =>
            simp only [some!]
            split <;> rfl

theorem idem_signedVote (sv : SignedVote) : Idem (T := T) (handleSignedVote sv) := by
  refine idem_cases (fr_signedVote sv) fun e s => ?_
  have fin : ∀ (s' : State T) (f g : List (Effect T)) (r : Except Err Unit), r ≠ .error .panic → g ⊆ f → (∀ x ∈ g, weighty x = false) →
      ((¬ s'.filterMessage sv.vote.height sv.vote.round = true → s'.authority.contains sv.voter = true →
        handleSignedVote sv e ⟨s', []⟩ =
        (if sv.vote.height > s'.height then (.ok (), ⟨{ s' with votes := s'.votes.insertVote sv.vote.blockHash sv sv.voter }, []⟩)
        else match countOut e s' (s'.votes.insertVote sv.vote.blockHash sv sv.voter) sv.vote.voteType with
          | .error x => (.error x, ⟨{ s' with votes := s'.votes.insertVote sv.vote.blockHash sv sv.voter }, []⟩)
          | .ok none => (.ok (), ⟨{ s' with votes := s'.votes.insertVote sv.vote.blockHash sv sv.voter }, []⟩)
          | .ok (some qc) => (.ok (), ⟨{ s' with votes := (s'.votes.insertVote sv.vote.blockHash sv sv.voter).setQc qc },
              .broadcast (.aggregatedVote qc) :: if s'.tryGetFullTxs qc.blockHash = false then [] else
                [.trigger (stTrigger sv.vote.voteType.toTrigger qc.blockHash none qc.round qc.height)]⟩)) →
        handleSignedVote sv e ⟨s', []⟩ = (r, ⟨s', g⟩))) →
      ∃ r' g, handleSignedVote sv e ⟨s', []⟩ = (r', ⟨s', g⟩) ∧ r' ≠ .error .panic ∧ g ⊆ f ∧ ∀ x ∈ g, weighty x = false := by
    intro s' f g r hr hg hm h
    rcases run_signedVote sv e s' with ⟨r', hr', h'⟩ | ⟨_, h1, h2, h3⟩
    · exact ⟨r', [], h', hr', by simp, by simp⟩
    · exact ⟨r, g, h h1 h2 h3, hr, hg, hm⟩
  rcases run_signedVote sv e s with ⟨r, hr, h⟩ | ⟨_, h1, h2, h3⟩
  · exact ⟨r, s, [], h, fun _ => ⟨r, [], h, hr, by simp, by simp⟩⟩
  · by_cases h4 : sv.vote.height > s.height
    · rw [if_pos h4] at h3
      refine ⟨_, _, _, h3, fun hr => fin _ _ [] _ hr (by simp) (by simp) fun _ _ h' => ?_⟩
      rw [h', if_pos h4]
      simp only [insertVote_again]
    · rw [if_neg h4] at h3
      cases hc : countOut e s (s.votes.insertVote sv.vote.blockHash sv sv.voter) sv.vote.voteType with
      | error x =>
        rw [hc] at h3
        refine ⟨_, _, _, h3, fun hr => fin _ _ [] _ hr (by simp) (by simp) fun _ _ h' => ?_⟩
        have hc' : countOut e { s with votes := s.votes.insertVote sv.vote.blockHash sv sv.voter } (s.votes.insertVote sv.vote.blockHash sv sv.voter) sv.vote.voteType = .error x := hc
        rw [h', if_neg h4]
        simp only [insertVote_again, hc']
      | ok o =>
        cases o with
        | none =>
          rw [hc] at h3
          refine ⟨_, _, _, h3, fun hr => fin _ _ [] _ hr (by simp) (by simp) fun _ _ h' => ?_⟩
          have hc' : countOut e { s with votes := s.votes.insertVote sv.vote.blockHash sv sv.voter } (s.votes.insertVote sv.vote.blockHash sv sv.voter) sv.vote.voteType = .ok none := hc
          rw [h', if_neg h4]
          simp only [insertVote_again, hc']
        | some qc =>
          rw [hc] at h3
          refine ⟨_, _, _, h3, fun hr => fin _ _ _ _ hr (fun _ h => h) ?_ fun _ _ h' => ?_⟩
          · intro x hx
            simp only [List.mem_cons] at hx
            rcases hx with rfl | hx
            · rfl
            · split at hx
              · simp at hx
              · simp only [List.mem_singleton] at hx; subst hx; rfl
          · have hc' : countOut e { s with votes := (s.votes.insertVote sv.vote.blockHash sv sv.voter).setQc qc }
                ((s.votes.insertVote sv.vote.blockHash sv sv.voter).setQc qc) sv.vote.voteType = .ok (some qc) := by
              refine Eq.trans ?_ hc
              exact countOut_setQc e s _ _ qc
            rw [h', if_neg h4]
            simp only [insertVote_setQc, setQc_again, hc']
            rfl

/-! ## Answers of block checks, statuses -/

theorem idem_resp (r : VerifyResp) : Idem (T := T) (handleResp r) := by
  have hf : Framed (T := T) (handleResp r) := by
    unfold handleResp
    refine fr_bind fr_get fun s => fr_ite _ (fr_pure _) (fr_bind (fr_modify _) fun _ => ?_)
    split
    · exact fr_emit _
    · split
      · exact fr_ite _ (fr_emit _) (fr_pure _)
      · exact fr_pure _
  refine idem_cases hf fun e s => ?_
  by_cases h1 : r.height ≠ s.height
  · have hr : handleResp r e ⟨s, []⟩ = (.ok (), ⟨s, []⟩) := by
      unfold handleResp; runs; rw [if_pos h1]
    exact ⟨_, _, _, hr, fun _ => ⟨_, _, hr, by simp, by simp, by simp⟩⟩
  · have hr : ∃ f : List (Effect T), (∀ x ∈ f, weighty x = false) ∧ ∀ m : AMap Hash Bool, handleResp r e ⟨{ s with isFullTransaction := m }, []⟩ =
        (.ok (), ⟨{ s with isFullTransaction := m.insert r.blockHash r.isPass }, f⟩) := by
      unfold handleResp
      runs [if_neg h1]
      cases s.votes.getQcByHash s.height r.blockHash .precommit with
      | some qc => exact ⟨[.trigger (stTrigger .precommitQC qc.blockHash none qc.round qc.height)], by simp [weighty], fun m => rfl⟩
      | none =>
        cases s.votes.getQcByHash s.height r.blockHash .prevote with
        | none => exact ⟨[], by simp, fun m => rfl⟩
        | some qc =>
          by_cases h2 : qc.round = s.round
          · exact ⟨[.trigger (stTrigger .prevoteQC qc.blockHash none qc.round qc.height)], by simp [weighty], fun m => by
              dsimp only; rw [ite_run, if_pos h2]; rfl⟩
          · exact ⟨[], by simp, fun m => by dsimp only; rw [ite_run, if_neg h2]; rfl⟩
    obtain ⟨f, hm, hr⟩ := hr
    refine ⟨_, _, _, hr s.isFullTransaction, fun _ => ⟨.ok (), f, ?_, by simp, fun _ h => h, hm⟩⟩
    rw [hr]
    simp only [insert_insert]

variable [ContentCodec T]

theorem idem_goto [DecidableEq T] (st : Status) : Idem (T := T) (gotoNewHeight st) := by
  intro e s l
  have noop : ∀ (s : State T) f, st.height ≤ s.height → Again (gotoNewHeight st) e f s := by
    intro s f h l'
    unfold gotoNewHeight
    wps
    refine ⟨fun _ => ⟨trivial, [], by simp⟩, fun h' => absurd h h'⟩
  by_cases h : st.height ≤ s.height
  · unfold gotoNewHeight
    wps
    refine ⟨fun _ => ⟨[], by simp, noop s [] h⟩, fun h' => absurd h h'⟩
  · have key : wp (gotoNewHeight st) e ⟨s, l⟩ (fun _ w => st.height ≤ w.st.height ∧ ∃ f, w.log = l ++ f)
        (fun _ w => st.height ≤ w.st.height ∧ ∃ f, w.log = l ++ f) := by
      refine wp_gotoNewHeight (fun h' => absurd h' h) (fun _ _ => ⟨Nat.le_refl _, [], by simp⟩) (fun _ _ _ => ⟨Nat.le_refl _, [], by simp⟩)
        (fun b _ _ _ _ => ⟨Nat.le_refl _, _, rfl⟩) (fun b _ _ _ _ => ⟨Nat.le_refl _, _, rfl⟩)
    exact wp_mono key (fun _ w hw => ⟨hw.2.choose, hw.2.choose_spec, noop _ _ hw.1⟩) fun _ w hw _ => ⟨hw.2.choose, hw.2.choose_spec, noop _ _ hw.1⟩

/-! ## Proposals -/

variable [DecidableEq T]

/-- The outcome of the check of the proposer. -/
def proposerOut (e : Env T) (s : State T) (p : Proposal T) : Except Err Unit :=
  if s.authority.contains p.proposer then
    match s.authority.getProposer e.mode p.height p.round with
    | .error x => .error x
    | .ok a => if p.proposer ≠ a then .error .proposalErr else .ok ()
  else .error .invalidAddress

/-- What a proposal does. -/
def proposalOut (e : Env T) (s : State T) (sp : SignedProposal T) : Except Err Unit × World T :=
  match proposerOut e s sp.proposal with
  | .error x => (.error x, ⟨s, []⟩)
  | .ok _ =>
    if s.filterMessage sp.proposal.height sp.proposal.round then (.ok (), ⟨s, []⟩)
    else if (sp.proposal.height = s.height ∧ sp.proposal.round ≠ s.round) ∨ sp.proposal.height > s.height then
      match s.proposals.insert sp.proposal.height sp.proposal.round sp with
      | .error x => (.error x, ⟨s, []⟩)
      | .ok ps => (.ok (), ⟨{ s with proposals := ps }, []⟩)
    else
      match s.proposals.insert s.height s.round sp with
      | .error x => (.error x, ⟨{ s with hashWithBlock := s.hashWithBlock.insert sp.proposal.blockHash sp.proposal.content }, []⟩)
      | .ok ps => (.ok (), ⟨{ s with hashWithBlock := s.hashWithBlock.insert sp.proposal.blockHash sp.proposal.content, proposals := ps },
          [.trigger (stTrigger .proposal sp.proposal.blockHash (sp.proposal.lock.map PoLC.lockRound) sp.proposal.round sp.proposal.height),
            .spawnCheck s.height s.round sp.proposal.blockHash sp.proposal.content]⟩)

omit [ContentCodec T] in
theorem run_signedProposal (sp : SignedProposal T) (e : Env T) (s : State T) : handleSignedProposal sp e ⟨s, []⟩ = proposalOut e s sp := by
  unfold handleSignedProposal verifyProposer verifyAddress filterSignedProposal proposalOut proposerOut checkBlock
  runs
  by_cases h1 : s.authority.contains sp.proposal.proposer = true
  swap
  · rw [if_neg h1, if_neg h1]
  rw [if_pos h1, if_pos h1]
  dsimp only
  cases s.authority.getProposer e.mode sp.proposal.height sp.proposal.round with
  | error x => rfl
  | ok a =>
    dsimp only
    by_cases h2 : sp.proposal.proposer ≠ a
    · rw [if_pos h2, if_pos h2]
    rw [if_neg h2, if_neg h2]
    dsimp only
    by_cases h3 : s.filterMessage sp.proposal.height sp.proposal.round = true
    · rw [if_pos h3, if_pos h3]
      rfl
    rw [if_neg h3, if_neg h3]
    by_cases h4 : (sp.proposal.height = s.height ∧ sp.proposal.round ≠ s.round) ∨ sp.proposal.height > s.height
    · rw [if_pos h4, if_pos h4]
      cases s.proposals.insert sp.proposal.height sp.proposal.round sp <;> rfl
    rw [if_neg h4, if_neg h4]
    dsimp only
    cases s.proposals.insert s.height s.round sp <;> rfl

omit [ContentCodec T] in
theorem fr_signedProposal (sp : SignedProposal T) : Framed (handleSignedProposal sp) := by
  unfold handleSignedProposal verifyProposer verifyAddress filterSignedProposal checkBlock
  refine fr_bind (fr_bind (fr_bind fr_get fun s => fr_ite _ (fr_pure _) (fr_fail _)) fun _ => fr_bind fr_get fun s => fr_bind (fr_ask _) fun _ =>
    fr_bind (fr_lift _) fun _ => fr_ite _ (fr_fail _) (fr_pure _)) fun _ => ?_
  refine fr_bind (fr_bind fr_get fun s => fr_ite _ (fr_pure _) (fr_ite _ (fr_bind (fr_lift _) fun _ => fr_bind (fr_modify _) fun _ => fr_pure _) (fr_pure _))) fun b => ?_
  refine fr_ite _ (fr_pure _) (fr_bind (fr_modify _) fun _ => fr_bind fr_get fun s => fr_bind (fr_lift _) fun _ => fr_bind (fr_modify _) fun _ =>
    fr_bind (fr_emit _) fun _ => fr_bind fr_get fun s => fr_emit _)

omit [ContentCodec T] in
theorem idem_signedProposal (sp : SignedProposal T) : Idem (handleSignedProposal sp) := by
  refine idem_fr (fr_signedProposal sp) fun e s hp => ?_
  simp only [run_signedProposal] at hp ⊢
  cases h1 : proposerOut e s sp.proposal with
  | error x =>
    simp only [proposalOut, h1] at hp ⊢
    exact ⟨trivial, hp, by simp, by simp⟩
  | ok u =>
    by_cases h3 : s.filterMessage sp.proposal.height sp.proposal.round = true
    · simp [proposalOut, h1, h3]
    by_cases h4 : (sp.proposal.height = s.height ∧ sp.proposal.round ≠ s.round) ∨ sp.proposal.height > s.height
    · cases h5 : s.proposals.insert sp.proposal.height sp.proposal.round sp with
      | error x =>
        have hr : proposalOut e s sp = (.error x, ⟨s, []⟩) := by
          unfold proposalOut; rw [h1]; simp only [h3, if_pos h4, h5]; rfl
        rw [hr] at hp ⊢
        simp only [hr]
        exact ⟨trivial, hp, by simp, by simp⟩
      | ok ps =>
        have hr : proposalOut e s sp = (.ok (), ⟨{ s with proposals := ps }, []⟩) := by
          unfold proposalOut; rw [h1]; simp only [h3, if_pos h4, h5]; rfl
        have hr' : proposalOut e { s with proposals := ps } sp = (.ok (), ⟨{ s with proposals := ps }, []⟩) := by
          have g1 : proposerOut e { s with proposals := ps } sp.proposal = .ok u := h1
          have g3 : ¬ State.filterMessage { s with proposals := ps } sp.proposal.height sp.proposal.round = true := h3
          unfold proposalOut; rw [g1]; simp only [g3, if_pos h4, props_insert_again h5]; rfl
        rw [hr] at hp ⊢
        simp only [hr']
        exact ⟨trivial, hp, by simp, by simp⟩
    · cases h5 : s.proposals.insert s.height s.round sp with
      | error x =>
        have hr : ∀ m : AMap Hash T, proposalOut e { s with hashWithBlock := m } sp =
            (.error x, ⟨{ s with hashWithBlock := m.insert sp.proposal.blockHash sp.proposal.content }, []⟩) := by
          intro m
          have g1 : proposerOut e { s with hashWithBlock := m } sp.proposal = .ok u := h1
          have g3 : ¬ State.filterMessage { s with hashWithBlock := m } sp.proposal.height sp.proposal.round = true := h3
          unfold proposalOut; rw [g1]; simp only [g3, if_neg h4, h5]; rfl
        have hr1 : proposalOut e s sp = _ := hr s.hashWithBlock
        rw [hr1] at hp ⊢
        simp only [hr, insert_insert]
        exact ⟨trivial, hp, by simp, by simp⟩
      | ok ps =>
        have hr : ∀ (m : AMap Hash T) (q : ProposalCollector T), q.insert s.height s.round sp = .ok ps →
            proposalOut e { s with hashWithBlock := m, proposals := q } sp =
            (.ok (), ⟨{ s with hashWithBlock := m.insert sp.proposal.blockHash sp.proposal.content, proposals := ps },
              [.trigger (stTrigger .proposal sp.proposal.blockHash (sp.proposal.lock.map PoLC.lockRound) sp.proposal.round sp.proposal.height),
                .spawnCheck s.height s.round sp.proposal.blockHash sp.proposal.content]⟩) := by
          intro m q hq
          have g1 : proposerOut e { s with hashWithBlock := m, proposals := q } sp.proposal = .ok u := h1
          have g3 : ¬ State.filterMessage { s with hashWithBlock := m, proposals := q } sp.proposal.height sp.proposal.round = true := h3
          unfold proposalOut; rw [g1]; simp only [g3, if_neg h4, hq]; rfl
        have hr1 : proposalOut e s sp = _ := hr s.hashWithBlock s.proposals h5
        have hr2 := hr (s.hashWithBlock.insert sp.proposal.blockHash sp.proposal.content) ps (props_insert_again h5)
        rw [hr1] at hp ⊢
        simp only [hr2, insert_insert]
        exact ⟨trivial, hp, fun _ h => h, by simp [weighty]⟩

/-! ## The run loop -/

/-- A handler whose errors are only logged, in the run loop. -/
def loopRun (m : M T Unit) (e : Env T) (w : World T) : Except Err Bool × World T :=
  match m e w with
  | (.ok _, w) => (.ok true, w)
  | (.error .panic, w) => (.error .panic, w)
  | (.error _, w) => (.ok true, w)

theorem loop_logged (m : M T Unit) (e : Env T) (w : World T) : (logged m >>= fun _ => (pure true : M T Bool)) e w = loopRun m e w := by
  rw [bind_run]
  unfold loopRun logged
  cases m e w with
  | mk r w =>
    cases r with
    | ok _ => rfl
    | error x => cases x <;> rfl

theorem loop_logged2 (m : M T Unit) (e : Env T) (w : World T) : loopRun (logged m) e w = loopRun m e w := by
  unfold loopRun logged
  cases m e w with
  | mk r w =>
    cases r with
    | ok _ => rfl
    | error x => cases x <;> rfl

/-- A repeated input changes nothing more. -/
theorem arm_again (e : Env T) (i : Input T) (s : State T) (hi : repeatable i = true) (hok : (runArm i e ⟨s, []⟩).1 = .ok true) :
    (runArm i e ⟨(runArm i e ⟨s, []⟩).2.st, []⟩).1 = .ok true ∧
    (runArm i e ⟨(runArm i e ⟨s, []⟩).2.st, []⟩).2.st = (runArm i e ⟨s, []⟩).2.st ∧
    (runArm i e ⟨(runArm i e ⟨s, []⟩).2.st, []⟩).2.log ⊆ (runArm i e ⟨s, []⟩).2.log ∧
    ∀ x ∈ (runArm i e ⟨(runArm i e ⟨s, []⟩).2.st, []⟩).2.log, weighty x = false := by
  -- a handler behind a condition on the state
  have guarded : ∀ (m : M T Unit) (c : State T → Prop) [DecidablePred c], Idem m →
      ∀ run : M T Bool, (∀ s : State T, run e ⟨s, []⟩ = if c s then (.ok true, ⟨s, []⟩) else
        loopRun m e ⟨s, []⟩) → (run e ⟨s, []⟩).1 = .ok true →
      (run e ⟨(run e ⟨s, []⟩).2.st, []⟩).1 = .ok true ∧ (run e ⟨(run e ⟨s, []⟩).2.st, []⟩).2.st = (run e ⟨s, []⟩).2.st ∧
      (run e ⟨(run e ⟨s, []⟩).2.st, []⟩).2.log ⊆ (run e ⟨s, []⟩).2.log ∧
      ∀ x ∈ (run e ⟨(run e ⟨s, []⟩).2.st, []⟩).2.log, weighty x = false := by
    intro m c _ hm run hrun hok
    have shape : ∀ s : State T, ¬ c s → (m e ⟨s, []⟩).1 ≠ .error .panic → run e ⟨s, []⟩ = (.ok true, (m e ⟨s, []⟩).2) := by
      intro s hc hp
      rw [hrun, if_neg hc]
      unfold loopRun
      cases h : m e ⟨s, []⟩ with
      | mk r w =>
        rw [h] at hp
        cases r with
        | ok _ => rfl
        | error x => cases x <;> first | rfl | exact absurd rfl hp
    by_cases hc : c s
    · have h1 : run e ⟨s, []⟩ = (.ok true, ⟨s, []⟩) := by rw [hrun, if_pos hc]
      simp only [h1]; simp
    · have hp : (m e ⟨s, []⟩).1 ≠ .error .panic := by
        intro hp
        rw [hrun, if_neg hc] at hok
        unfold loopRun at hok
        cases h : m e ⟨s, []⟩ with
        | mk r w => rw [h] at hp hok; simp only at hp; subst hp; simp at hok
      rw [shape s hc hp]
      obtain ⟨h1, h2, h3, h4⟩ := idem_at hm e s hp
      dsimp only
      by_cases hc' : c (m e ⟨s, []⟩).2.st
      · rw [hrun, if_pos hc']
        simp
      · rw [shape _ hc' h2]
        exact ⟨rfl, h1, h3, h4⟩
  cases i with
  | start => cases hi
  | event ev => cases hi
  | resp r =>
    refine guarded (handleResp r) (fun s => s.consensusPower = false) (idem_resp r) _ (fun s => ?_) hok
    rw [← loop_logged]
    show (if s.consensusPower = false then (pure true : M T Bool) else (logged (handleResp r) >>= fun _ => pure true)) e ⟨s, []⟩ = _
    rw [ite_run]
    rfl
  | raw m =>
    have hr : ∀ s : State T, ((runArm (.raw m) e ⟨s, []⟩).2.st = s) ∧ (∀ x ∈ (runArm (.raw m) e ⟨s, []⟩).2.log, weighty x = false) := by
      intro s
      unfold runArm
      runs
      split
      · exact ⟨rfl, by simp [weighty]⟩
      · cases m.getHeight?
        · exact ⟨rfl, by simp [fail_run]⟩
        · runs
          split
          · exact ⟨rfl, by simp [weighty]⟩
          · split
            · exact ⟨rfl, by simp [weighty]⟩
            · exact ⟨rfl, by simp⟩
    rw [(hr s).1]
    exact ⟨hok, (hr s).1, fun _ h => h, (hr s).2⟩
  | verified m =>
    have go : ∀ (h : M T Unit), Idem h → (∀ s : State T, runArm (.verified m) e ⟨s, []⟩ =
        if s.consensusPower = false ∧ m.isRichStatus = false then (.ok true, ⟨s, []⟩) else
        loopRun h e ⟨s, []⟩) → _ := fun h hh hrun => guarded h (fun s => s.consensusPower = false ∧ m.isRichStatus = false) hh _ hrun hok
    have dispatch : ∀ (m : OverlordMsg T) (h : M T Unit), (∀ s : State T, handleMsg m e ⟨s, []⟩ =
        if s.consensusPower = false ∧ m.isRichStatus = false then (.ok (), ⟨s, []⟩) else logged h e ⟨s, []⟩) →
        ∀ s : State T, runArm (.verified m) e ⟨s, []⟩ =
          if s.consensusPower = false ∧ m.isRichStatus = false then (.ok true, ⟨s, []⟩) else loopRun h e ⟨s, []⟩ := by
      intro m h hh s
      have h1 : runArm (.verified m) e ⟨s, []⟩ = loopRun (handleMsg m) e ⟨s, []⟩ := loop_logged (handleMsg m) e ⟨s, []⟩
      rw [h1]
      by_cases hc : s.consensusPower = false ∧ m.isRichStatus = false
      · rw [if_pos hc]
        unfold loopRun
        rw [hh, if_pos hc]
      · rw [if_neg hc, ← loop_logged2 h]
        unfold loopRun
        rw [hh, if_neg hc]
    cases m with
    | stop =>
      have hr : ∀ s : State T, runArm (.verified .stop) e ⟨s, []⟩ = if s.consensusPower = false then (.ok true, ⟨s, []⟩) else
          (.ok true, ⟨{ s with stopped := true }, [.trigger (stTrigger .stop [] none s.round s.height)]⟩) := by
        intro s
        have h1 : runArm (.verified .stop) e ⟨s, []⟩ = loopRun (handleMsg .stop) e ⟨s, []⟩ := loop_logged (handleMsg .stop) e ⟨s, []⟩
        rw [h1]
        unfold loopRun handleMsg
        runs
        by_cases hc : s.consensusPower = false
        · simp [hc, OverlordMsg.isRichStatus]
        · simp [hc]
      by_cases hc : s.consensusPower = false
      · have h1 := hr s
        rw [if_pos hc] at h1
        simp only [h1]; simp
      · have h1 := hr s
        rw [if_neg hc] at h1
        have h2 := hr { s with stopped := true }
        rw [if_neg hc] at h2
        simp only [h1, h2]
        exact ⟨trivial, trivial, fun _ h => h, by simp [weighty]⟩
    | signedProposal sp =>
      have hd := dispatch (.signedProposal sp) (handleSignedProposal sp) fun s => by
        show (if s.consensusPower = false ∧ _ then (pure () : M T Unit) else _) e ⟨s, []⟩ = _
        rw [ite_run]
        rfl
      exact go (handleSignedProposal sp) (idem_signedProposal sp) hd
    | signedVote sv =>
      have hd := dispatch (.signedVote sv) (handleSignedVote sv) fun s => by
        show (if s.consensusPower = false ∧ _ then (pure () : M T Unit) else _) e ⟨s, []⟩ = _
        rw [ite_run]
        rfl
      exact go (handleSignedVote sv) (idem_signedVote sv) hd
    | aggregatedVote qc =>
      have hd := dispatch (.aggregatedVote qc) (handleAggregatedVote qc) fun s => by
        show (if s.consensusPower = false ∧ _ then (pure () : M T Unit) else _) e ⟨s, []⟩ = _
        rw [ite_run]
        rfl
      exact go (handleAggregatedVote qc) (idem_aggregatedVote qc) hd
    | richStatus st =>
      have hd := dispatch (.richStatus st) (gotoNewHeight st) fun s => by
        show (if s.consensusPower = false ∧ _ then (pure () : M T Unit) else _) e ⟨s, []⟩ = _
        rw [ite_run]
        rfl
      exact go (gotoNewHeight st) (idem_goto st) hd
    | signedChoke sc =>
      have hd := dispatch (.signedChoke sc) (handleSignedChoke sc) fun s => by
        show (if s.consensusPower = false ∧ _ then (pure () : M T Unit) else _) e ⟨s, []⟩ = _
        rw [ite_run]
        rfl
      exact go (handleSignedChoke sc) (idem_signedChoke sc) hd

theorem mem_trace_cons (e : Env T) (i : Input T) (s : State T) (l : List (Env T × Input T)) (x : Effect T) :
    x ∈ s.trace ((e, i) :: l) → x ∈ (runArm i e ⟨s, []⟩).2.log ∨ ((runArm i e ⟨s, []⟩).1 = .ok true ∧ x ∈ (runArm i e ⟨s, []⟩).2.st.trace l) := by
  intro h
  unfold State.trace at h
  split at h
  · rename_i w hw
    rw [hw]
    rcases List.mem_append.1 h with h | h
    · exact .inl h
    · exact .inr ⟨rfl, h⟩
  · rename_i hw
    rw [hw]
    exact .inl h

theorem run_repeats {ins ins' : List (Env T × Input T)} (h : Repeats ins ins') : ∀ s : State T,
    s.after ins' = s.after ins ∧ (s.trace ins').filter weighty = (s.trace ins).filter weighty ∧ ∀ x ∈ s.trace ins', x ∈ s.trace ins := by
  induction h with
  | nil => exact fun s => ⟨rfl, rfl, fun _ h => h⟩
  | cons p _ ih =>
    intro s
    obtain ⟨e, i⟩ := p
    by_cases hok : (runArm i e ⟨s, []⟩).1 = .ok true
    · obtain ⟨w, hw⟩ : ∃ w, runArm i e ⟨s, []⟩ = (.ok true, w) := ⟨_, Prod.ext hok rfl⟩
      obtain ⟨h1, h2, h3⟩ := ih w.st
      simp only [State.after, State.trace, hw, List.filter_append]
      refine ⟨h1, by rw [h2], fun x hx => ?_⟩
      rcases List.mem_append.1 hx with hx | hx
      · exact List.mem_append_left _ hx
      · exact List.mem_append_right _ (h3 x hx)
    · cases hw : runArm i e ⟨s, []⟩ with
      | mk r w =>
        rw [hw] at hok
        simp only [State.after, State.trace, hw]
        cases r with
        | error y => exact ⟨by first | rfl | trivial, by first | rfl | trivial, fun _ h => h⟩
        | ok b =>
          cases b with
          | true => exact absurd rfl hok
          | false => exact ⟨by first | rfl | trivial, by first | rfl | trivial, fun _ h => h⟩
  | @again p l l' hp _ ih =>
    intro s
    obtain ⟨e, i⟩ := p
    obtain ⟨h1, h2, h3⟩ := ih s
    by_cases hok : (runArm i e ⟨s, []⟩).1 = .ok true
    · obtain ⟨w, hw⟩ : ∃ w, runArm i e ⟨s, []⟩ = (.ok true, w) := ⟨_, Prod.ext hok rfl⟩
      obtain ⟨g1, g2, g3, g4⟩ := arm_again e i s hp hok
      rw [hw] at g1 g2 g3 g4
      obtain ⟨w', hw'⟩ : ∃ w', runArm i e ⟨w.st, []⟩ = (.ok true, w') := ⟨_, Prod.ext g1 rfl⟩
      rw [hw'] at g2 g3 g4
      have e2 : w'.st = w.st := g2
      have hnil : w'.log.filter weighty = [] := List.filter_eq_nil_iff.2 fun x hx => by simp [g4 x hx]
      have a1 : s.after ((e, i) :: (e, i) :: l') = s.after ((e, i) :: l') := by
        simp only [State.after, hw, hw', e2]
      have t0 : s.trace ((e, i) :: l') = w.log ++ w.st.trace l' := by simp only [State.trace, hw]
      have t1 : s.trace ((e, i) :: (e, i) :: l') = w.log ++ (w'.log ++ w.st.trace l') := by
        simp only [State.trace, hw, hw', e2]
      refine ⟨a1.trans h1, ?_, ?_⟩
      · rw [← h2, t1, t0]
        simp only [List.filter_append, hnil, List.nil_append]
      · intro x hx
        refine h3 x ?_
        rw [t1] at hx
        rw [t0]
        rcases List.mem_append.1 hx with hx | hx
        · exact List.mem_append_left _ hx
        · rcases List.mem_append.1 hx with hx | hx
          · exact List.mem_append_left _ (g3 hx)
          · exact List.mem_append_right _ hx
    · have a1 : s.after ((e, i) :: (e, i) :: l') = s.after ((e, i) :: l') ∧ s.trace ((e, i) :: (e, i) :: l') = s.trace ((e, i) :: l') := by
        cases hw : runArm i e ⟨s, []⟩ with
        | mk r w =>
          rw [hw] at hok
          simp only [State.after, State.trace, hw]
          cases r with
          | error y => exact ⟨by first | rfl | trivial, by first | rfl | trivial⟩
          | ok b =>
            cases b with
            | true => exact absurd rfl hok
            | false => exact ⟨by first | rfl | trivial, by first | rfl | trivial⟩
      rw [a1.1, a1.2]
      exact ⟨h1, h2, h3⟩

theorem repeats_mem {ins ins' : List (Env T × Input T)} (h : Repeats ins ins') : (∀ p ∈ ins', p ∈ ins) ∧
    (∀ p ∈ ins'.tail, p ∈ ins.tail ∨ repeatable p.2 = true) ∧ (ins' = [] ↔ ins = []) ∧ ins'.head? = ins.head? := by
  induction h with
  | nil => simp
  | @cons p l l' _ ih =>
    obtain ⟨h1, _, _, _⟩ := ih
    refine ⟨?_, ?_, by simp, by simp⟩
    · intro q hq
      rcases List.mem_cons.1 hq with rfl | hq
      · exact List.mem_cons_self ..
      · exact List.mem_cons_of_mem _ (h1 q hq)
    · intro q hq
      exact .inl (h1 q hq)
  | @again p l l' hp _ ih =>
    obtain ⟨h1, h2, _, _⟩ := ih
    refine ⟨?_, ?_, by simp, by simp⟩
    · intro q hq
      rcases List.mem_cons.1 hq with rfl | hq
      · exact List.mem_cons_self ..
      · exact h1 q hq
    · intro q hq
      rcases List.mem_cons.1 hq with rfl | hq
      · exact .inr hp
      · exact h2 q hq

end Overlord.Rep
