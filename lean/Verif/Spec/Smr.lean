import Verif.Model.Smr

/-!
# Specification vocabulary for the voting state machine (C01–C07)

Only observations of a run: the position before/after each handled trigger and the votes and commits
that the machine orders. Nothing here refers to how a handler is implemented.
-/

namespace Overlord.Spec

/-- A consensus position (height, round, step). -/
structure Pos where
  height : Nat
  round : Nat
  step : Nat

/-- Strict lexicographic order on positions. -/
def Pos.lt (a b : Pos) : Prop :=
  a.height < b.height ∨
  (a.height = b.height ∧ (a.round < b.round ∨ (a.round = b.round ∧ a.step < b.step)))

/-- Lexicographic order on positions. -/
def Pos.le (a b : Pos) : Prop :=
  a.height < b.height ∨
  (a.height = b.height ∧ (a.round < b.round ∨ (a.round = b.round ∧ a.step ≤ b.step)))

/-- The position of the machine. -/
def pos (s : Smr) : Pos := ⟨s.height, s.round, s.step.toNat⟩

/-- A vote that the machine ordered: kind, height, round, block hash. -/
structure OVote where
  kind : VoteType
  height : Nat
  round : Nat
  hash : Hash
deriving DecidableEq, Repr

/-- The vote ordered by an event sent to the State (timer-only events order nothing). -/
def voteOf : Out → Option OVote
  | .both (.prevoteVote h r b _) => some ⟨.prevote, h, r, b⟩
  | .both (.precommitVote h r b _) => some ⟨.precommit, h, r, b⟩
  | _ => none

/-- The hash whose commit is ordered by an event. -/
def commitOf : Out → Option Hash
  | .both (.commit h) => some h
  | _ => none

/-- Votes ordered while handling one trigger. -/
def votesIn (o : SmrOut) : List OVote := o.outs.filterMap voteOf
/-- Commits ordered while handling one trigger. -/
def commitsIn (o : SmrOut) : List Hash := o.outs.filterMap commitOf

/-- All votes ordered in a run, oldest first. -/
def votes (tr : List SmrRec) : List OVote := tr.flatMap (fun r => votesIn r.out)

/-- The trigger does not restore a WAL record, i.e. it is not the one sent when a node starts. -/
def NotWal (t : SMRTrigger) : Prop := t.triggerType ≠ .walInfo

/-- A quorum-certificate trigger of the very last `u64` round. The round counter can not go beyond
it: `round + 1` overflows. -/
def LastRoundQC (t : SMRTrigger) : Prop :=
  (t.triggerType = .prevoteQC ∨ t.triggerType = .precommitQC) ∧ t.source = .state ∧ t.round = 2 ^ 64 - 1

/-- All numbers of the trigger that the machine computes with are `u64`. -/
def InRange (t : SMRTrigger) : Prop := t.round < 2 ^ 64

end Overlord.Spec

namespace Overlord.Spec

/-- A proposal handed over by the State that carries a proof of lock change for a round above `lr`. -/
def LockChangeProposal (t : SMRTrigger) (lr : Nat) : Prop :=
  t.triggerType = .proposal ∧ t.source = .state ∧ ∃ r, t.lockRound = some r ∧ lr < r

/-- A prevote quorum certificate handed over by the State, for height `h` and a round `≥ r`. -/
def PrevoteQuorum (t : SMRTrigger) (h r : Nat) : Prop :=
  t.triggerType = .prevoteQC ∧ t.source = .state ∧ t.height = h ∧ r ≤ t.round

/-- A rich status for a height above `h`. -/
def HigherStatus (t : SMRTrigger) (h : Nat) : Prop :=
  ∃ st, t.triggerType = .newHeight st ∧ t.source = .state ∧ h < st.height

/-- The trigger comes from the timer. -/
def Timeout (t : SMRTrigger) : Prop := t.source = .timer

/-- A choke certificate (or enough chokes) orders the move to round `t.round`. -/
def ChokeQuorum (t : SMRTrigger) : Prop := t.triggerType = .continueRound ∧ t.source = .state

/-- Inputs that are out of date, or from the future, for a machine at height `h`, round `r`
(the list of claim C06). -/
inductive Stale (h r : Nat) (t : SMRTrigger) : Prop
  /-- a proposal, certificate, choke certificate or timeout of another height -/
  | height (ht : t.triggerType = .proposal ∨ t.triggerType = .prevoteQC ∨
      t.triggerType = .precommitQC ∨ (t.triggerType = .brakeTimeout ∧ t.source = .timer) ∨
      (t.triggerType = .continueRound ∧ t.source = .state)) (hh : t.height ≠ h)
  /-- a proposal of another round -/
  | proposalRound (ht : t.triggerType = .proposal) (hr : t.round ≠ r)
  /-- a timeout of another round -/
  | timeoutRound (ht : t.triggerType = .proposal ∨ t.triggerType = .prevoteQC ∨
      t.triggerType = .precommitQC ∨ t.triggerType = .brakeTimeout)
      (hs : t.source = .timer) (hr : t.round ≠ r)
  /-- a prevote quorum of an earlier round -/
  | prevoteQuorum (ht : t.triggerType = .prevoteQC) (hr : t.round < r)
  /-- an empty precommit quorum of an earlier round -/
  | emptyPrecommitQuorum (ht : t.triggerType = .precommitQC) (hn : t.hash = []) (hr : t.round < r)
  /-- a choke certificate that orders a round already reached -/
  | choke (ht : t.triggerType = .continueRound) (hs : t.source = .state) (hr : t.round ≤ r)
  /-- a status for a height already reached -/
  | status (st : SMRStatus) (ht : t.triggerType = .newHeight st) (hh : st.height ≤ h)

end Overlord.Spec
