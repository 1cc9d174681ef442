import Verif.Proofs.SmrTrace

/-!
# Property theorems about the voting state machine: C01 – C06, and C07 (state machine part)

A run is `s.run ts`: the machine starts in `s` (any state: a fresh one, or one restored from the
WAL) and handles the triggers `ts`. `(s.run ts).2` has one record per handled trigger.
-/

set_option linter.unusedSimpArgs false

namespace Overlord
open Spec

/-! ## Sample triggers used by the non-vacuity examples -/

namespace Demo
/-- A block hash. -/
def blkA : Hash := [0xaa]
/-- Another block hash. -/
def blkB : Hash := [0xbb]
/-- Rich status for height `h`. -/
def status (h : Nat) : SMRTrigger :=
  ⟨.newHeight ⟨h, none, none⟩, .state, [], none, 0, h, none⟩
/-- Proposal from the State. -/
def proposal (hash : Hash) (h r : Nat) (lr : Option Nat := none) : SMRTrigger :=
  ⟨.proposal, .state, hash, lr, r, h, none⟩
/-- Prevote certificate from the State. -/
def prevoteQC (hash : Hash) (h r : Nat) : SMRTrigger := ⟨.prevoteQC, .state, hash, none, r, h, none⟩
/-- Precommit certificate from the State. -/
def precommitQC (hash : Hash) (h r : Nat) : SMRTrigger :=
  ⟨.precommitQC, .state, hash, none, r, h, none⟩
/-- Timeout of a step. -/
def timeout (ty : TriggerType) (h r : Nat) : SMRTrigger := ⟨ty, .timer, [], none, r, h, none⟩
/-- A choke certificate orders round `r`. -/
def cont (h r : Nat) : SMRTrigger := ⟨.continueRound, .state, [], none, r, h, none⟩
/-- Two rounds of one height with timeouts, a lock, a skip and a commit. -/
def busy : List SMRTrigger :=
  [status 1, proposal blkA 1 0, prevoteQC blkA 1 0, timeout .precommitQC 1 0, cont 1 1,
   timeout .proposal 1 1, timeout .prevoteQC 1 1, prevoteQC blkA 1 3, precommitQC blkA 1 4,
   status 2, timeout .proposal 2 0]
end Demo

instance (t : SMRTrigger) : Decidable (Tame t) := by
  unfold Tame NotWal InRange LastRoundQC; infer_instance

/-! ## C01 -/

/-- **C01** (partial: triggers of the very last `u64` round are excluded, see
`C01_false_at_last_round`). In every run, whatever the triggers are, every handled trigger leaves
the position unchanged or moves it forward, and positions never decrease from one record to any
later one. -/
theorem C01_position_never_goes_back_partial (s : Smr) (ts : List SMRTrigger)
    (h : ∀ t ∈ ts, NotWal t ∧ InRange t ∧ ¬ LastRoundQC t) :
    (∀ r ∈ (s.run ts).2, Pos.le (pos s) (pos r.before) ∧
      Pos.le (pos r.before) (pos r.out.next) ∧ Pos.le (pos r.out.next) (pos (s.run ts).1)) ∧
    (s.run ts).2.Pairwise (fun a b => Pos.le (pos a.out.next) (pos b.before)) :=
  (run_pos_le s ts h).2

example : (∀ t ∈ Demo.busy, NotWal t ∧ InRange t ∧ ¬ LastRoundQC t) ∧
    (Smr.init.run Demo.busy).2.length = 11 ∧ (Smr.init.run Demo.busy).1.height = 2 := by
  refine ⟨?_, by decide, by decide⟩
  show ∀ t ∈ Demo.busy, Tame t
  decide

/-- C01 is false for the last `u64` round: a certificate of round `2^64 - 1` makes `round + 1` wrap
around (release profile) and the machine returns to round 0 of the same height. -/
theorem C01_false_at_last_round :
    ∃ (s : Smr) (t : SMRTrigger), NotWal t ∧ InRange t ∧
      (s.onTrigger t).next.height = s.height ∧ (s.onTrigger t).next.round < s.round := by
  refine ⟨⟨1, 5, .propose, [], none⟩, Demo.precommitQC [] 1 (2 ^ 64 - 1), ?_, ?_, ?_, ?_⟩
  · simp [NotWal, Demo.precommitQC]
  · simp [InRange, Demo.precommitQC]
  · decide
  · decide

/-! ## C02 -/

/-- **C02** (partial: last `u64` round excluded). In every run at most one prevote and at most one
precommit is ordered for each height and round. -/
theorem C02_at_most_one_vote_partial (s : Smr) (ts : List SMRTrigger)
    (h : ∀ t ∈ ts, NotWal t ∧ InRange t ∧ ¬ LastRoundQC t) (k : VoteType) (height round : Nat) :
    ((votes (s.run ts).2).filter
      (fun v => v.kind = k ∧ v.height = height ∧ v.round = round)).length ≤ 1 := by
  have hp := (run_votes s ts h).2
  have hf := hp.filter (fun v => decide (v.kind = k ∧ v.height = height ∧ v.round = round))
  have hm : ∀ v ∈ (votes (s.run ts).2).filter
      (fun v => decide (v.kind = k ∧ v.height = height ∧ v.round = round)),
      vpos v = ⟨height, round, k.toStep.toNat⟩ := by
    intro v hv
    have := (List.mem_filter.1 hv).2
    simp only [decide_eq_true_eq] at this
    simp [vpos, this]
  match hl : (votes (s.run ts).2).filter
      (fun v => decide (v.kind = k ∧ v.height = height ∧ v.round = round)) with
  | [] => rw [hl]; simp
  | [_] => rw [hl]; simp
  | a :: b :: l =>
    exfalso
    rw [hl] at hf hm
    have h1 := (List.pairwise_cons.1 hf).1 b (by simp)
    rw [hm a (by simp), hm b (by simp)] at h1
    exact Pos.lt_irrefl _ h1

example : votes (Smr.init.run Demo.busy).2 =
    [⟨.prevote, 1, 0, Demo.blkA⟩, ⟨.precommit, 1, 0, Demo.blkA⟩, ⟨.prevote, 1, 1, Demo.blkA⟩,
     ⟨.precommit, 1, 1, []⟩, ⟨.precommit, 1, 4, Demo.blkA⟩, ⟨.prevote, 2, 0, []⟩] := by decide

/-- The order of votes: in every run, the votes ordered have strictly increasing
(height, round, prevote < precommit). -/
theorem C02_votes_strictly_ordered_partial (s : Smr) (ts : List SMRTrigger)
    (h : ∀ t ∈ ts, NotWal t ∧ InRange t ∧ ¬ LastRoundQC t) :
    (votes (s.run ts).2).Pairwise (fun a b =>
      Pos.lt ⟨a.height, a.round, a.kind.toStep.toNat⟩ ⟨b.height, b.round, b.kind.toStep.toNat⟩) :=
  (run_votes s ts h).2

/-! ## C03 -/

/-- **C03, votes.** In every run from a fresh start (restarts from a WAL included) a machine that is
locked when it handles a trigger orders a prevote only for the locked block, unless that very
trigger is a proposal with a proof of lock change for a higher round – then for that proposal. A
precommit is then for the locked block, empty, or for the block of a prevote quorum of the current
or a later round. -/
theorem C03_locked_votes (ts : List SMRTrigger) (r : SmrRec) (hr : r ∈ (Smr.init.run ts).2)
    (l : Lock) (hl : r.before.lock = some l) (v : OVote) (hv : v ∈ votesIn r.out) :
    (v.kind = .prevote → v.hash = l.hash ∨
      (LockChangeProposal r.trig l.round ∧ v.hash = r.trig.hash)) ∧
    (v.kind = .precommit → v.hash = [] ∨
      (PrevoteQuorum r.trig r.before.height r.before.round ∧ v.hash = r.trig.hash)) := by
  have hinv := (lockInv_run _ ts lockInv_init).2 r hr
  have ho := (run_rec hr).1
  rw [ho] at hv
  have hc := smr_case r.before r.trig
  generalize r.before.onTrigger r.trig = o at *
  have hbl := hinv l hl
  cases hc with
  | wal w ht hw =>
    unfold Smr.handleWal at hv
    simp only at hv
    split at hv <;> simp [votesIn, voteOf] at hv
  | propState s1 ht hs hh hr' hst hne hacc =>
    have hsp := accept_spec hacc
    simp [votesIn, voteOf] at hv
    subst hv
    refine ⟨fun _ => ?_, fun h => by simp at h⟩
    rcases hsp.2.2.2 with ⟨_, b, _⟩ | ⟨_, b, c⟩
    · left; simp only [b, hbl]
    · right
      rcases c with c | ⟨l', r', c1, c2, c3⟩
      · rw [hl] at c; simp at c
      · rw [hl] at c1; cases c1
        exact ⟨⟨ht, hs, r', c2, c3⟩, b⟩
  | propTimer ht hs hh hr' hst =>
    simp [votesIn, voteOf] at hv
    subst hv
    simp [Smr.lockProposal, hl]
  | prevoteSame ht hs hh hr' hst =>
    simp [votesIn, voteOf] at hv
    subst hv
    simp [PrevoteQuorum, ht, hs, hh, hr']
  | prevoteSkip ht hs hh hr' =>
    simp [votesIn, voteOf] at hv
    subst hv
    simp only [reduceCtorEq, false_imp_iff, true_and, true_imp_iff, PrevoteQuorum, ht, hs, hh]
    right; simp; omega
  | prevoteTimer b ht hs hh hr' hst hb =>
    simp [votesIn, voteOf] at hv
    subst hv
    simp
  | _ => simp [votesIn, voteOf] at hv

/-- **C03, lock changes.** For every state and every trigger: if handling the trigger changes the
lock, then the trigger is (a) a proposal with a proof of lock change for a strictly higher round,
which releases the lock, (b) a prevote quorum of the current or a later round of this height, which
sets the lock to its block (or releases it if it is empty), (c) a status for a higher height, which
releases it, or the restoration of a WAL record at the start. -/
theorem C03_lock_changes (s : Smr) (t : SMRTrigger) (h : (s.onTrigger t).next.lock ≠ s.lock) :
    (∃ l, s.lock = some l ∧ LockChangeProposal t l.round ∧ (s.onTrigger t).next.lock = none) ∨
    (PrevoteQuorum t s.height s.round ∧
      (s.onTrigger t).next.lock = if t.hash = [] then none else some ⟨t.round, t.hash⟩) ∨
    (HigherStatus t s.height ∧ (s.onTrigger t).next.lock = none) ∨
    t.triggerType = .walInfo := by
  have hc := smr_case s t
  generalize s.onTrigger t = o at *
  cases hc with
  | wal w ht hw => simp [ht]
  | newHeight st ht hs hh => right; right; left; exact ⟨⟨st, ht, hs, hh⟩, rfl⟩
  | propState s1 ht hs hh hr' hst hne hacc =>
    have hsp := accept_spec hacc
    rcases hsp.2.2.2 with ⟨a, _⟩ | ⟨a, b, c⟩
    · exact absurd a h
    · rcases c with c | ⟨l', r', c1, c2, c3⟩
      · exact absurd (a.trans c.symm) h
      · exact .inl ⟨l', c1, ⟨ht, hs, r', c2, c3⟩, a⟩
  | prevoteSame ht hs hh hr' hst =>
    right; left
    exact ⟨⟨ht, hs, hh, by omega⟩, by simp [updatePolc_lock]⟩
  | prevoteSkip ht hs hh hr' =>
    right; left
    exact ⟨⟨ht, hs, hh, by omega⟩, by simp [updatePolc_lock]⟩
  | _ => exact absurd rfl h

/-- **C03, timeouts and chokes.** No timeout and no choke certificate ever releases or changes a
lock, in any state. -/
theorem C03_timeouts_and_chokes_keep_lock (s : Smr) (t : SMRTrigger) (hw : NotWal t)
    (h : Timeout t ∨ ChokeQuorum t) : (s.onTrigger t).next.lock = s.lock := by
  by_cases hne : (s.onTrigger t).next.lock = s.lock
  · exact hne
  · rcases C03_lock_changes s t hne with ⟨l, _, ⟨h1, h2, _⟩, _⟩ | ⟨⟨h1, h2, _⟩, _⟩ | ⟨⟨st, h1, h2, _⟩, _⟩ | h1
    · rcases h with h | h
      · simp [Timeout, h2] at h
      · simp [ChokeQuorum, h1] at h
    · rcases h with h | h
      · simp [Timeout, h2] at h
      · simp [ChokeQuorum, h1] at h
    · rcases h with h | h
      · simp [Timeout, h2] at h
      · simp [ChokeQuorum, h1] at h
    · exact absurd h1 hw

/-- A concrete run in which a locked machine prevotes its lock after timeouts, then gives it up for a
proposal with a higher proof of lock change. -/
example : votes (Smr.init.run [Demo.status 1, Demo.proposal Demo.blkA 1 0, Demo.prevoteQC Demo.blkA 1 0,
      Demo.timeout .precommitQC 1 0, Demo.cont 1 1, Demo.proposal Demo.blkB 1 1,
      Demo.timeout .prevoteQC 1 1, Demo.cont 1 2, Demo.proposal Demo.blkB 1 2 (some 1)]).2 =
    [⟨.prevote, 1, 0, Demo.blkA⟩, ⟨.precommit, 1, 0, Demo.blkA⟩, ⟨.prevote, 1, 1, Demo.blkA⟩,
     ⟨.precommit, 1, 1, []⟩, ⟨.prevote, 1, 2, Demo.blkB⟩] := by decide

/-! ## C04 -/

/-- **C04.** In every state, a precommit for a non-empty hash is ordered only in direct response to a
prevote quorum certificate, handed over by the State, for that hash and this height, and the
precommit's round is the certificate's round (the machine was in that round, before its precommit
step) or the round right after it (the machine was in an earlier round and skips). Timeouts
therefore only order empty precommits. -/
theorem C04_precommit_justified (s : Smr) (t : SMRTrigger) (v : OVote)
    (hv : v ∈ votesIn (s.onTrigger t)) (hk : v.kind = .precommit) (hne : v.hash ≠ []) :
    t.triggerType = .prevoteQC ∧ t.source = .state ∧ t.hash = v.hash ∧
    t.height = v.height ∧ v.height = s.height ∧
    ((v.round = t.round ∧ s.round = t.round ∧ s.step.toNat ≤ Step.prevote.toNat) ∨
     (s.round < t.round ∧ v.round = inc64 t.round)) := by
  have hc := smr_case s t
  generalize s.onTrigger t = o at *
  cases hc with
  | wal w ht hw =>
    unfold Smr.handleWal at hv
    simp only at hv
    split at hv <;> simp [votesIn, voteOf] at hv
  | prevoteSame ht hs hh hr' hst =>
    simp [votesIn, voteOf] at hv
    subst hv
    simp [ht, hs, hh, hr', hst]
  | prevoteSkip ht hs hh hr' =>
    simp [votesIn, voteOf] at hv
    subst hv
    simp [ht, hs, hh, hr']
  | _ => simp [votesIn, voteOf] at hv <;> (subst hv; simp_all)

/-- **C04, no prevote in a skipped-into round** (partial: last `u64` round excluded). In every run,
if the machine precommits in a round later than the one it was in (the skip case), it orders no
prevote for that round, before or after. -/
theorem C04_no_prevote_when_skipping_partial (s : Smr) (ts : List SMRTrigger)
    (h : ∀ t ∈ ts, NotWal t ∧ InRange t ∧ ¬ LastRoundQC t)
    (r : SmrRec) (hr : r ∈ (s.run ts).2) (v : OVote) (hv : v ∈ votesIn r.out)
    (hk : v.kind = .precommit) (hskip : r.before.round < v.round)
    (p : OVote) (hp : p ∈ votes (s.run ts).2) (hpk : p.kind = .prevote)
    (hph : p.height = v.height) : p.round ≠ v.round := by
  intro hpr
  -- locate the record that ordered `p`
  obtain ⟨q, hq, hpq⟩ := List.mem_flatMap.1 hp
  have tame := fun (x : SmrRec) (hx : x ∈ (s.run ts).2) => h x.trig (run_rec hx).2
  have vr := step_vote r.before r.trig (tame r hr).2.1 (tame r hr).2.2 v
    (by rw [← (run_rec hr).1]; exact hv)
  have vq := step_vote q.before q.trig (tame q hq).2.1 (tame q hq).2.2 p
    (by rw [← (run_rec hq).1]; exact hpq)
  rw [← (run_rec hr).1] at vr
  rw [← (run_rec hq).1] at vq
  have hbefore : r.before.height = v.height := by
    have hc := smr_case r.before r.trig
    have hv' := hv
    rw [(run_rec hr).1] at hv'
    generalize r.before.onTrigger r.trig = o at *
    cases hc with
    | wal w ht hw =>
      unfold Smr.handleWal at hv'
      simp only at hv'
      split at hv' <;> simp [votesIn, voteOf] at hv'
    | _ => simp [votesIn, voteOf] at hv' <;> (subst hv'; simp_all)
  have hpw := (run_pos_le s ts h).2.2
  have hall := (run_pos_le s ts h).2.1
  -- either `q` is `r`, or before it, or after it
  obtain ⟨i, hi, rfl⟩ := List.getElem_of_mem hr
  obtain ⟨j, hj, rfl⟩ := List.getElem_of_mem hq
  rcases Nat.lt_trichotomy i j with hij | hij | hij
  · have hle := (List.pairwise_iff_getElem.1 hpw) i j hi hj hij
    rw [vr.2.2] at hle
    have hlt := vq.2.1
    simp only [Pos.le, Pos.lt, pos, hk, hpk, VoteType.toStep, Step.toNat_prevote,
      Step.toNat_precommit] at hle hlt
    omega
  · subst hij
    have e := vr.1
    have : p ∈ [v] := e ▸ hpq
    simp at this
    rw [this, hk] at hpk
    simp at hpk
  · have hle := (List.pairwise_iff_getElem.1 hpw) j i hj hi hij
    rw [vq.2.2] at hle
    simp only [Pos.le, Pos.lt, pos, hk, hpk, VoteType.toStep, Step.toNat_prevote,
      Step.toNat_precommit] at hle
    omega

example : ∃ r ∈ (Smr.init.run Demo.busy).2, (⟨.precommit, 1, 4, Demo.blkA⟩ : OVote) ∈ votesIn r.out ∧
    r.before.round = 1 := by decide

/-! ## C05 -/

/-- **C05.** In every state, a commit of a hash is ordered only in direct response to a precommit
quorum certificate handed over by the State (never by the timer) for exactly that non-empty hash and
the current height. -/
theorem C05_commit_needs_precommit_quorum (s : Smr) (t : SMRTrigger) (x : Hash)
    (hx : x ∈ commitsIn (s.onTrigger t)) :
    t.triggerType = .precommitQC ∧ t.source = .state ∧ t.hash = x ∧ x ≠ [] ∧ t.height = s.height ∧
    s.step ≠ .commit := by
  have hc := smr_case s t
  generalize s.onTrigger t = o at *
  cases hc with
  | wal w ht hw =>
    unfold Smr.handleWal at hx
    simp only at hx
    split at hx <;> simp [commitsIn, commitOf] at hx
  | commit ht hs hh hst hn =>
    simp [commitsIn, commitOf] at hx
    subst hx
    exact ⟨ht, hs, rfl, hn, hh, hst⟩
  | _ => simp [commitsIn, commitOf] at hx

/-- C05, converse: such a certificate does order the commit, from every step but the commit step. -/
theorem C05_precommit_quorum_commits (s : Smr) (t : SMRTrigger) (ht : t.triggerType = .precommitQC)
    (hs : t.source = .state) (hn : t.hash ≠ []) (hh : t.height = s.height) (hst : s.step ≠ .commit) :
    commitsIn (s.onTrigger t) = [t.hash] := by
  simp [Smr.onTrigger, ht, Smr.handlePrecommit, hs, hn, hh, hst, commitsIn, commitOf]

example : commitsIn ((⟨1, 4, .precommit, Demo.blkA, none⟩ : Smr).onTrigger
    (Demo.precommitQC Demo.blkA 1 2)) = [Demo.blkA] := by decide

/-! ## C06 -/

/-- **C06.** In every state, every stale input leaves the machine unchanged and produces no event at
all: no vote, no commit, no round change, no timer. -/
theorem C06_stale_inputs_inert (s : Smr) (t : SMRTrigger) (h : Stale s.height s.round t) :
    (s.onTrigger t).next = s ∧ (s.onTrigger t).outs = [] := by
  cases h with
  | height ht hh =>
    have hh' : s.height ≠ t.height := fun e => hh e.symm
    rcases ht with ht | ht | ht | ⟨ht, hs⟩ | ⟨ht, hs⟩ <;>
    simp [Smr.onTrigger, ht, Smr.handleProposal, Smr.handlePrevote, Smr.handlePrecommit,
      Smr.handleBrakeTimeout, Smr.handleContinueRound, Smr.idle, hh, hh', *]
  | proposalRound ht hr =>
    have hr' : s.round ≠ t.round := fun e => hr e.symm
    simp [Smr.onTrigger, ht, Smr.handleProposal, Smr.idle, hr']
  | timeoutRound ht hs hr =>
    have hr' : s.round ≠ t.round := fun e => hr e.symm
    rcases ht with ht | ht | ht | ht
    · simp [Smr.onTrigger, ht, Smr.handleProposal, Smr.idle, hr']
    · simp only [Smr.onTrigger, ht, Smr.handlePrevote, Smr.idle, hr, hs]
      split <;> simp
    · simp only [Smr.onTrigger, ht, Smr.handlePrecommit, Smr.idle, hr, hs]
      split
      · simp
      · split <;> simp [hr]
    · simp [Smr.onTrigger, ht, hs, Smr.handleBrakeTimeout, Smr.idle, hr]
  | prevoteQuorum ht hr =>
    have hr' : t.round ≠ s.round := by omega
    simp only [Smr.onTrigger, ht, Smr.handlePrevote, Smr.idle, hr, hr']
    split
    · simp
    · split <;> simp
  | emptyPrecommitQuorum ht hn hr =>
    have hr' : t.round ≠ s.round := by omega
    simp only [Smr.onTrigger, ht, Smr.handlePrecommit, Smr.idle, hr, hr', hn]
    split
    · simp
    · split
      · simp
      · split <;> simp
  | choke ht hs hr =>
    simp [Smr.onTrigger, ht, hs, Smr.handleContinueRound, Smr.idle, hr]
  | status st ht hh =>
    simp only [Smr.onTrigger, ht, Smr.handleNewHeight, hh]
    split <;> simp

example : Stale 5 3 (Demo.prevoteQC Demo.blkA 5 2) ∧ Stale 5 3 (Demo.timeout .precommitQC 5 4) ∧
    Stale 5 3 (Demo.precommitQC Demo.blkA 4 3) :=
  ⟨.prevoteQuorum rfl (by decide), .timeoutRound (by simp [Demo.timeout]) rfl (by decide),
   .height (by simp [Demo.precommitQC]) (by decide)⟩

/-! ## C07, state machine part -/

/-- C07 is false of the state machine: after ordering the commit of a height it may, on a prevote
certificate of a later round followed by a precommit certificate, order a second commit for the same
height. -/
theorem C07_false_in_state_machine :
    ∃ ts : List SMRTrigger, (∀ t ∈ ts, NotWal t ∧ InRange t ∧ ¬ LastRoundQC t) ∧
      ∃ a b : SmrRec, [a, b].Sublist (Smr.init.run ts).2 ∧
        commitsIn a.out ≠ [] ∧ commitsIn b.out ≠ [] ∧ a.before.height = b.before.height := by
  refine ⟨[Demo.status 1, Demo.precommitQC Demo.blkA 1 0, Demo.prevoteQC Demo.blkB 1 1,
    Demo.precommitQC Demo.blkB 1 2], ?_, ?_⟩
  · show ∀ t ∈ _, Tame t
    decide
  · refine ⟨((Smr.init.run [Demo.status 1, Demo.precommitQC Demo.blkA 1 0, Demo.prevoteQC Demo.blkB 1 1,
      Demo.precommitQC Demo.blkB 1 2]).2)[1], ((Smr.init.run [Demo.status 1,
      Demo.precommitQC Demo.blkA 1 0, Demo.prevoteQC Demo.blkB 1 1,
      Demo.precommitQC Demo.blkB 1 2]).2)[3], ?_, ?_, ?_, ?_⟩ <;> decide

end Overlord
