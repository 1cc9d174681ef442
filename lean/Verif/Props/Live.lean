import Verif.Spec.Live
import Verif.Props.Smr

/-!
# C49: every live input takes effect

C01 – C06 say what the voting state machine may not do. C49 says what it must do: which inputs it
has to act on, and how.
-/

set_option linter.unusedSimpArgs false

namespace Overlord
open Spec

/-- The block that a machine with lock `l` prevotes for a proposal of `hash` that claims the lock
round `lr`: the lock, unless the proposal proves a later one. -/
def Spec.prevoteFor (l : Option Lock) (hash : Hash) (lr : Option Nat) : Hash :=
  match l, lr with
  | none, _ => hash
  | some k, none => k.hash
  | some k, some r => if k.round < r then hash else k.hash

/-- The block prevoted when no proposal came: the lock, or nothing. -/
def Spec.ownBlock (l : Option Lock) : Hash :=
  match l with
  | none => []
  | some k => k.hash

/-- **C49, proposal.** In every state of a run from a fresh start (restarts included), a proposal of
the current height and round that comes while the machine waits for one, and that does not
contradict its lock, makes the machine prevote at once: for the proposal, or for its lock. -/
theorem C49_proposal (ts : List SMRTrigger) (s : Smr) (hs : s = (Smr.init.run ts).1) (t : SMRTrigger)
    (ht : t.triggerType = .proposal) (hsrc : t.source = .state) (hh : t.height = s.height)
    (hr : t.round = s.round) (hst : s.step = .propose) (hne : t.hash ≠ [])
    (hok : ∀ k, s.lock = some k → t.lockRound = some k.round → t.hash = k.hash) :
    ordersOf (s.onTrigger t) =
      { votes := [⟨.prevote, s.height, s.round, prevoteFor s.lock t.hash t.lockRound⟩] } ∧
    (s.onTrigger t).next.step = .prevote ∧ (s.onTrigger t).next.round = s.round ∧
    (s.onTrigger t).next.height = s.height := by
  have hl : LockInv s := by rw [hs]; exact (lockInv_run _ ts lockInv_init).1
  unfold Smr.onTrigger
  simp only [ht, Smr.handleProposal, hh, hr, hst, hsrc, hne, Smr.acceptProposal]
  cases hlk : s.lock with
  | none =>
    cases hlr : t.lockRound <;>
      simp [hlk, hlr, ordersOf, votesIn, commitsIn, roundsIn, brakesIn, voteOf, commitOf, roundOf,
        brakeOf, prevoteFor]
  | some k =>
    have hb := hl k hlk
    cases hlr : t.lockRound with
    | none =>
      simp [hlk, hlr, ordersOf, votesIn, commitsIn, roundsIn, brakesIn, voteOf, commitOf, roundOf,
        brakeOf, prevoteFor, hb]
    | some r =>
      by_cases h1 : k.round < r
      · simp [hlk, hlr, h1, ordersOf, votesIn, commitsIn, roundsIn, brakesIn, voteOf, commitOf,
          roundOf, brakeOf, prevoteFor, hb]
      · have h2 : ¬ (r = k.round ∧ t.hash ≠ s.blockHash) := by
          rintro ⟨h2, h3⟩
          exact h3 (by rw [hb]; exact hok k hlk (by rw [hlr, h2]))
        simp only [hlk, hlr, gt_iff_lt, h1, if_false, h2]
        simp [ordersOf, votesIn, commitsIn, roundsIn, brakesIn, voteOf, commitOf,
          roundOf, brakeOf, prevoteFor, hb, h1]

/-- **C49, propose timeout**: the machine prevotes its lock, or empty. -/
theorem C49_propose_timeout (s : Smr) (t : SMRTrigger)
    (ht : t.triggerType = .proposal) (hsrc : t.source = .timer) (hh : t.height = s.height)
    (hr : t.round = s.round) (hst : s.step = .propose) :
    ordersOf (s.onTrigger t) = { votes := [⟨.prevote, s.height, s.round, ownBlock s.lock⟩] } ∧
    (s.onTrigger t).next.step = .prevote ∧ (s.onTrigger t).next.round = s.round ∧
    (s.onTrigger t).next.height = s.height ∧ (s.onTrigger t).next.lock = s.lock := by
  unfold Smr.onTrigger
  simp only [ht, Smr.handleProposal, hh, hr, hst, hsrc]
  cases hlk : s.lock <;>
    simp [hlk, ordersOf, votesIn, commitsIn, roundsIn, brakesIn, voteOf, commitOf, roundOf,
        brakeOf, ownBlock]

/-- **C49, prevote quorum of the current round**: before its precommit step the machine precommits
what the quorum is for, and locks it (an empty quorum unlocks). -/
theorem C49_prevote_quorum (s : Smr) (t : SMRTrigger)
    (ht : t.triggerType = .prevoteQC) (hsrc : t.source = .state) (hh : t.height = s.height)
    (hr : t.round = s.round) (hst : s.step = .propose ∨ s.step = .prevote) :
    ordersOf (s.onTrigger t) = { votes := [⟨.precommit, s.height, s.round, t.hash⟩] } ∧
    (s.onTrigger t).next.step = .precommit ∧ (s.onTrigger t).next.round = s.round ∧
    (s.onTrigger t).next.height = s.height ∧
    (s.onTrigger t).next.lock = if t.hash = [] then none else some ⟨t.round, t.hash⟩ := by
  unfold Smr.onTrigger
  have h1 : ¬ s.step.toNat > Step.prevote.toNat := by rcases hst with h | h <;> simp [h]
  simp only [ht, Smr.handlePrevote, hh, hr, hsrc, h1]
  simp [updatePolc_height, updatePolc_round, updatePolc_blockHash, updatePolc_lock, ordersOf, votesIn,
    commitsIn, roundsIn, brakesIn, voteOf, commitOf, roundOf, brakeOf]

/-- **C49, prevote quorum of a later round** (below the last `u64` round): in any step, even after
committing, the machine enters the round right after the quorum's, announces it, precommits there
what the quorum is for and locks it at the quorum's round. -/
theorem C49_later_prevote_quorum (s : Smr) (t : SMRTrigger)
    (ht : t.triggerType = .prevoteQC) (hsrc : t.source = .state) (hh : t.height = s.height)
    (hr : s.round < t.round) (hb : t.round < 2 ^ 64 - 1) :
    ordersOf (s.onTrigger t) =
      { votes := [⟨.precommit, s.height, t.round + 1, t.hash⟩],
        rounds := [(s.height, t.round + 1)] } ∧
    (s.onTrigger t).next.step = .precommit ∧ (s.onTrigger t).next.round = t.round + 1 ∧
    (s.onTrigger t).next.height = s.height ∧
    (s.onTrigger t).next.lock = if t.hash = [] then none else some ⟨t.round, t.hash⟩ := by
  unfold Smr.onTrigger
  have h1 : ¬ t.round = s.round := by omega
  have h2 : ¬ t.round < s.round := by omega
  simp only [ht, Smr.handlePrevote, hh, h1, h2, hr, hsrc, Smr.gotoNextRound]
  simp [updatePolc_height, updatePolc_round, updatePolc_blockHash, updatePolc_lock, ordersOf, votesIn,
    commitsIn, roundsIn, brakesIn, voteOf, commitOf, roundOf, brakeOf, inc64_of_lt hb,
    List.filterMap_cons]

/-- **C49, prevote timeout**: the machine precommits empty and keeps its lock. -/
theorem C49_prevote_timeout (s : Smr) (t : SMRTrigger)
    (ht : t.triggerType = .prevoteQC) (hsrc : t.source = .timer) (hh : t.height = s.height)
    (hr : t.round = s.round) (hst : s.step = .propose ∨ s.step = .prevote) :
    ordersOf (s.onTrigger t) = { votes := [⟨.precommit, s.height, s.round, []⟩] } ∧
    (s.onTrigger t).next.step = .precommit ∧ (s.onTrigger t).next.round = s.round ∧
    (s.onTrigger t).next.height = s.height ∧ (s.onTrigger t).next.lock = s.lock := by
  unfold Smr.onTrigger
  have h1 : ¬ s.step.toNat > Step.prevote.toNat := by rcases hst with h | h <;> simp [h]
  simp only [ht, Smr.handlePrevote, hh, hr, hsrc, h1]
  cases hlk : s.lock <;>
  simp [hlk, ordersOf, votesIn, commitsIn, roundsIn, brakesIn, voteOf, commitOf, roundOf, brakeOf]

/-- **C49, precommit quorum for a block**: whatever its round and the machine's round, it is
committed at once. -/
theorem C49_precommit_quorum (s : Smr) (t : SMRTrigger)
    (ht : t.triggerType = .precommitQC) (hsrc : t.source = .state) (hh : t.height = s.height)
    (hst : s.step ≠ .commit) (hne : t.hash ≠ []) :
    ordersOf (s.onTrigger t) = { commits := [t.hash] } ∧
    (s.onTrigger t).next.step = .commit ∧ (s.onTrigger t).next.height = s.height := by
  unfold Smr.onTrigger
  simp only [ht, Smr.handlePrecommit, hh, hst, hne, hsrc]
  simp [ordersOf, votesIn, commitsIn, roundsIn, brakesIn, voteOf, commitOf, roundOf, brakeOf]

/-- **C49, empty precommit quorum** of the current or a later round (below the last `u64` round):
the machine enters the round right after it, keeping its lock, and announces it. -/
theorem C49_empty_precommit_quorum (s : Smr) (t : SMRTrigger)
    (ht : t.triggerType = .precommitQC) (hsrc : t.source = .state) (hh : t.height = s.height)
    (hr : s.round ≤ t.round) (hst : s.step ≠ .commit) (hn : t.hash = []) (hb : t.round < 2 ^ 64 - 1) :
    ordersOf (s.onTrigger t) = { rounds := [(s.height, t.round + 1)] } ∧
    (s.onTrigger t).next.step = .propose ∧ (s.onTrigger t).next.round = t.round + 1 ∧
    (s.onTrigger t).next.height = s.height ∧ (s.onTrigger t).next.lock = s.lock := by
  unfold Smr.onTrigger
  have h1 : ¬ t.round < s.round := by omega
  simp only [ht, Smr.handlePrecommit, hh, hst, hn, hsrc, h1, Smr.gotoNextRound]
  simp [ordersOf, votesIn, commitsIn, roundsIn, brakesIn, voteOf, commitOf, roundOf, brakeOf,
    inc64_of_lt hb]

/-- **C49, precommit timeout**: the machine goes to its brake step and orders a choke. -/
theorem C49_precommit_timeout (s : Smr) (t : SMRTrigger)
    (ht : t.triggerType = .precommitQC) (hsrc : t.source = .timer) (hh : t.height = s.height)
    (hr : t.round = s.round) (hst : s.step ≠ .commit) :
    ordersOf (s.onTrigger t) = { brakes := [(s.height, s.round)] } ∧
    (s.onTrigger t).next.step = .brake ∧ (s.onTrigger t).next.round = s.round ∧
    (s.onTrigger t).next.height = s.height ∧ (s.onTrigger t).next.lock = s.lock := by
  unfold Smr.onTrigger
  simp only [ht, Smr.handlePrecommit, hh, hst, hr, hsrc]
  simp [ordersOf, votesIn, commitsIn, roundsIn, brakesIn, voteOf, commitOf, roundOf, brakeOf]

/-- **C49, brake timeout**: the machine orders the choke again and stays where it is. -/
theorem C49_brake_timeout (s : Smr) (t : SMRTrigger)
    (ht : t.triggerType = .brakeTimeout) (hsrc : t.source = .timer) (hh : t.height = s.height)
    (hr : t.round = s.round) :
    ordersOf (s.onTrigger t) = { brakes := [(s.height, s.round)] } ∧ (s.onTrigger t).next = s := by
  unfold Smr.onTrigger
  simp only [ht, Smr.handleBrakeTimeout, hh, hr, hsrc]
  simp [ordersOf, votesIn, commitsIn, roundsIn, brakesIn, voteOf, commitOf, roundOf, brakeOf]

/-- **C49, choke quorum** that orders a later round: the machine enters exactly that round, keeping
its lock, and announces it. -/
theorem C49_choke_quorum (s : Smr) (t : SMRTrigger)
    (ht : t.triggerType = .continueRound) (hsrc : t.source = .state) (hh : t.height = s.height)
    (hr : s.round < t.round) (hb : t.round < 2 ^ 64) :
    ordersOf (s.onTrigger t) = { rounds := [(s.height, t.round)] } ∧
    (s.onTrigger t).next.step = .propose ∧ (s.onTrigger t).next.round = t.round ∧
    (s.onTrigger t).next.height = s.height ∧ (s.onTrigger t).next.lock = s.lock := by
  unfold Smr.onTrigger
  have h1 : ¬ t.round ≤ s.round := by omega
  have h2 : inc64 (t.round - 1) = t.round := by rw [inc64_of_lt (by omega)]; omega
  simp only [ht, Smr.handleContinueRound, hh, hsrc, h1, Smr.gotoNextRound]
  simp [ordersOf, votesIn, commitsIn, roundsIn, brakesIn, voteOf, commitOf, roundOf, brakeOf, h2]

/-- **C49, status** of a higher height: the machine enters round 0 of exactly that height, without a
lock, and announces it. -/
theorem C49_status (s : Smr) (t : SMRTrigger) (st : SMRStatus)
    (ht : t.triggerType = .newHeight st) (hsrc : t.source = .state) (hh : s.height < st.height) :
    ordersOf (s.onTrigger t) = { rounds := [(st.height, 0)] } ∧
    (s.onTrigger t).next.step = .propose ∧ (s.onTrigger t).next.round = 0 ∧
    (s.onTrigger t).next.height = st.height ∧ (s.onTrigger t).next.lock = none := by
  unfold Smr.onTrigger
  have h1 : ¬ st.height ≤ s.height := by omega
  simp only [ht, Smr.handleNewHeight, hsrc, h1, Smr.gotoNewHeight]
  simp [ordersOf, votesIn, commitsIn, roundsIn, brakesIn, voteOf, commitOf, roundOf, brakeOf, INIT_ROUND]

/-- **C49, exactly these.** In every state of a run from a fresh start (restarts included), an input
other than a restart or a stop makes the machine give an order if and only if it is live; and an
input that is not live changes nothing at all. -/
theorem C49_reacts_iff_live (ts : List SMRTrigger) (s : Smr) (hs : s = (Smr.init.run ts).1)
    (t : SMRTrigger) (hw : NotWal t) (hst : t.triggerType ≠ .stop) :
    (ordersOf (s.onTrigger t) ≠ {} ↔ Live s.height s.round s.step s.lock t) ∧
    (¬ Live s.height s.round s.step s.lock t → (s.onTrigger t).next = s ∧ (s.onTrigger t).outs = []) := by
  have hl : LockInv s := by rw [hs]; exact (lockInv_run _ ts lockInv_init).1
  have hfwd : Live s.height s.round s.step s.lock t → ordersOf (s.onTrigger t) ≠ {} := by
    intro h
    cases h with
    | proposal ht hs' hh hr hst hne hok =>
      rw [(C49_proposal ts s hs t ht hs' hh hr hst hne hok).1]; simp
    | proposeTimeout ht hs hh hr hst => rw [(C49_propose_timeout s t ht hs hh hr hst).1]; simp
    | prevoteQuorum ht hs hh hr hst => rw [(C49_prevote_quorum s t ht hs hh hr hst).1]; simp
    | laterPrevoteQuorum ht hs hh hr =>
      have hc := smr_case s t
      unfold Smr.onTrigger
      have h1 : ¬ t.round = s.round := by omega
      have h2 : ¬ t.round < s.round := by omega
      simp only [ht, Smr.handlePrevote, hh, h1, h2, hr, hs, Smr.gotoNextRound]
      simp [ordersOf, votesIn, voteOf]
    | prevoteTimeout ht hs hh hr hst => rw [(C49_prevote_timeout s t ht hs hh hr hst).1]; simp
    | precommitQuorum ht hs hh hst hne => rw [(C49_precommit_quorum s t ht hs hh hst hne).1]; simp
    | emptyPrecommitQuorum ht hs hh hr hst hn =>
      unfold Smr.onTrigger
      have h1 : ¬ t.round < s.round := by omega
      simp only [ht, Smr.handlePrecommit, hh, hst, hn, hs, h1, Smr.gotoNextRound]
      simp [ordersOf, roundsIn, roundOf]
    | precommitTimeout ht hs hh hr hst => rw [(C49_precommit_timeout s t ht hs hh hr hst).1]; simp
    | brakeTimeout ht hs hh hr => rw [(C49_brake_timeout s t ht hs hh hr).1]; simp
    | choke ht hs hh hr =>
      unfold Smr.onTrigger
      have h1 : ¬ t.round ≤ s.round := by omega
      simp only [ht, Smr.handleContinueRound, hh, hs, h1]
      simp [ordersOf, roundsIn, roundOf]
    | status st ht hs hh => rw [(C49_status s t st ht hs hh).1]; simp
  have hbwd : Live s.height s.round s.step s.lock t ∨
      ((s.onTrigger t).next = s ∧ (s.onTrigger t).outs = []) := by
    have hc := smr_case s t
    generalize s.onTrigger t = o at *
    cases hc with
    | quiet res => exact .inr ⟨rfl, rfl⟩
    | newHeight st ht hs hh => exact .inl (.status st ht hs hh)
    | propTimer ht hs hh hr hst => exact .inl (.proposeTimeout ht hs hh hr hst)
    | propState s1 ht hs hh hr hst hne hacc =>
      refine .inl (.proposal ht hs hh hr hst hne ?_)
      intro k hk hlr
      unfold Smr.acceptProposal at hacc
      simp only [hk, hlr, gt_iff_lt, Nat.lt_irrefl, if_false, true_and] at hacc
      split at hacc
      · simp at hacc
      · next hx =>
        have := Decidable.not_not.1 hx
        rw [this]; exact hl k hk
    | prevoteTimer b ht hs hh hr hst hb =>
      refine .inl (.prevoteTimeout ht hs hh hr ?_)
      revert hst; cases s.step <;> simp
    | prevoteSame ht hs hh hr hst =>
      refine .inl (.prevoteQuorum ht hs hh hr ?_)
      revert hst; cases s.step <;> simp
    | prevoteSkip ht hs hh hr => exact .inl (.laterPrevoteQuorum ht hs hh hr)
    | precommitTimer ht hs hh hr hst => exact .inl (.precommitTimeout ht hs hh hr hst)
    | precommitNil ht hs hh hr hst hn => exact .inl (.emptyPrecommitQuorum ht hs hh hr hst hn)
    | commit ht hs hh hst hn => exact .inl (.precommitQuorum ht hs hh hst hn)
    | brake ht hs hh hr => exact .inl (.brakeTimeout ht hs hh hr)
    | cont ht hs hh hr => exact .inl (.choke ht hs hh hr)
    | wal w ht hw' => exact absurd ht hw
    | stop ht => exact absurd ht hst
  refine ⟨⟨fun h => ?_, hfwd⟩, fun h => hbwd.resolve_left h⟩
  rcases hbwd with h' | ⟨_, h'⟩
  · exact h'
  · exact absurd (by simp [ordersOf, votesIn, commitsIn, roundsIn, brakesIn, h']) h

/-- Where an input must bring the machine at least, whatever its own position was: a status brings it
to its height, a prevote quorum to its round, a choke quorum to the round it orders. (An empty
precommit quorum does not: it is ignored after a commit was ordered.) -/
def Spec.Brings (t : SMRTrigger) (h r : Nat) : Prop :=
  (∃ st, t.triggerType = .newHeight st ∧ t.source = .state ∧ st.height = h ∧ r = 0) ∨
  (t.triggerType = .prevoteQC ∧ t.source = .state ∧ t.height = h ∧ t.round = r) ∨
  (t.triggerType = .continueRound ∧ t.source = .state ∧ t.height = h ∧ t.round = r)

/-- **C49, nobody is left behind.** In every run with in-range triggers, once a machine that has
reached height `h` has handled a prevote quorum of round `r` of that height, or a choke quorum that
orders round `r` of it, or a status of height `h`, it is at `(h, r)` or further ever after – whatever
its round, step or lock was. -/
theorem C49_catches_up (s : Smr) (ts : List SMRTrigger)
    (hts : ∀ t ∈ ts, NotWal t ∧ InRange t ∧ ¬ LastRoundQC t)
    (x : SmrRec) (hx : x ∈ (s.run ts).2) (h r : Nat) (hb : Brings x.trig h r)
    (hat : h ≤ x.before.height ∨ ∃ st, x.trig.triggerType = .newHeight st) :
    Pos.le ⟨h, r, 0⟩ (pos (s.run ts).1) := by
  have hle := ((run_pos_le s ts hts).2.1 x hx).2.2
  have hmono := ((run_pos_le s ts hts).2.1 x hx).2.1
  refine Pos.le_trans ?_ hle
  have ho := (run_rec hx).1
  have htame := hts x.trig (run_rec hx).2
  rcases hb with ⟨st, ht, hs, hh, hr⟩ | ⟨ht, hs, hh, hr⟩ | ⟨ht, hs, hh, hr⟩
  · by_cases hlt : x.before.height < st.height
    · have := C49_status x.before x.trig st ht hs hlt
      rw [← ho] at this
      simp only [Pos.le, pos, this.2.2.2.1, this.2.2.1]
      omega
    · refine Pos.le_trans ?_ hmono
      simp only [Pos.le, pos]
      omega
  · rcases hat with hat | ⟨st, hat⟩
    · by_cases hlt : h < x.before.height
      · refine Pos.le_trans ?_ hmono
        simp only [Pos.le, pos]; omega
      · have heq : x.trig.height = x.before.height := by omega
        by_cases hr' : x.before.round < x.trig.round
        · have hbd : x.trig.round < 2 ^ 64 - 1 := by
            have h1 := htame.2.1
            have h2 := htame.2.2
            simp only [InRange] at h1
            simp only [LastRoundQC, ht, hs] at h2
            simp at h2
            omega
          have := C49_later_prevote_quorum x.before x.trig ht hs heq hr' hbd
          rw [← ho] at this
          simp only [Pos.le, pos, this.2.2.2.1, this.2.2.1]
          omega
        · refine Pos.le_trans ?_ hmono
          simp only [Pos.le, pos]; omega
    · rw [ht] at hat; simp at hat
  · rcases hat with hat | ⟨st, hat⟩
    · by_cases hlt : h < x.before.height
      · refine Pos.le_trans ?_ hmono
        simp only [Pos.le, pos]; omega
      · have heq : x.trig.height = x.before.height := by omega
        by_cases hr' : x.before.round < x.trig.round
        · have := C49_choke_quorum x.before x.trig ht hs heq hr' htame.2.1
          rw [← ho] at this
          simp only [Pos.le, pos, this.2.2.2.1, this.2.2.1]
          omega
        · refine Pos.le_trans ?_ hmono
          simp only [Pos.le, pos]; omega
    · rw [ht] at hat; simp at hat

/-- An input from the past, in a run that has every kind of reaction: all 11 inputs are live. -/
example : ((Smr.init.run Demo.busy).2.map (fun r => ordersOf r.out)) =
    [{ rounds := [(1, 0)] }, { votes := [⟨.prevote, 1, 0, Demo.blkA⟩] },
     { votes := [⟨.precommit, 1, 0, Demo.blkA⟩] }, { brakes := [(1, 0)] }, { rounds := [(1, 1)] },
     { votes := [⟨.prevote, 1, 1, Demo.blkA⟩] }, { votes := [⟨.precommit, 1, 1, []⟩] },
     { votes := [⟨.precommit, 1, 4, Demo.blkA⟩], rounds := [(1, 4)] }, { commits := [Demo.blkA] },
     { rounds := [(2, 0)] }, { votes := [⟨.prevote, 2, 0, []⟩] }] := by decide

/-- The hypotheses of the step theorems are met along that run: e.g. the machine waits in the propose
step of round 1, locked on block A of round 0, when the choke quorum has been handled; a proposal of B
with a proof of lock change of round 1 is then prevoted, one without is answered with the lock, and
the empty precommit quorum of round 7 takes it to round 8. -/
example :
    let s := (Smr.init.run (Demo.busy.take 5)).1
    s.step = .propose ∧ s.round = 1 ∧ s.lock = some ⟨0, Demo.blkA⟩ ∧
    ordersOf (s.onTrigger (Demo.proposal Demo.blkB 1 1)) =
      { votes := [⟨.prevote, 1, 1, Demo.blkA⟩] } ∧
    ordersOf (s.onTrigger (Demo.proposal Demo.blkB 1 1 (some 1))) =
      { votes := [⟨.prevote, 1, 1, Demo.blkB⟩] } ∧
    ordersOf (s.onTrigger (Demo.precommitQC [] 1 7)) = { rounds := [(1, 8)] } ∧
    ordersOf (s.onTrigger (Demo.timeout .brakeTimeout 1 1)) = { brakes := [(1, 1)] } := by
  decide

end Overlord
