import Verif.Model.State

/-!
# The State module with its clock

`Model/State.lean` drops time. Here the handlers that read or set `height_start`, or sleep, are written once more with a clock:
process.rs:53, 103 (the field and its first value), 419 (`goto_new_height`), 605 (`handle_signed_proposal`), 804-817
(`handle_commit`). Everything between two of these points is the code of `Model/State.lean`, run by `plain`.

Times are milliseconds. How much time passes before the clock is read again is arbitrary (`ahead`): it stands for the time the
awaited calls (`commit`, `get_block`, the storage) and the scheduler take.

Simplification: a stretch of code between two readings of the clock carries one time stamp, that of the reading before it.
-/

namespace Overlord

/-- What is seen with a clock: an effect, or a pause of the State's task. -/
inductive Timed (T : Type) where
  /-- process.rs:118-190 `State::run`: an effect of `Model/State.lean` and the time -/
  | act (at_ : Nat) (x : Effect T)
  /-- process.rs:816 `sleep`: when it begins and how long it lasts at least -/
  | sleep (at_ : Nat) (ms : Nat)
deriving DecidableEq, Repr

/-- process.rs:39-63 `State` with `height_start`, and the time. -/
structure TWorld (T : Type) where
  /-- the state and the effects of `Model/State.lean` -/
  w : World T
  /-- the time of the last reading of the clock -/
  now : Nat
  /-- process.rs:53 `height_start` -/
  heightStart : Nat
  /-- how much time passes until the next readings (0 when the list is used up) -/
  ahead : List Nat
  /-- the effects and pauses so far, oldest first -/
  tlog : List (Timed T)

/-- process.rs:118-190 `State::run`: handlers that may use the clock. -/
def TM (T α : Type) := Env T → TWorld T → Except Err α × TWorld T

namespace TM
variable {T α β : Type}

protected def pure (a : α) : TM T α := fun _ w => (.ok a, w)
protected def bind (m : TM T α) (f : α → TM T β) : TM T β := fun e w =>
  match m e w with
  | (.ok a, w') => f a e w'
  | (.error x, w') => (.error x, w')

instance : Monad (TM T) where
  pure := TM.pure
  bind := TM.bind

/-- process.rs:118-190 `State::run`: code that does not touch the clock, run as in `Model/State.lean`. -/
def plain (m : M T α) : TM T α := fun e w =>
  ((m e w.w).1, { w with w := (m e w.w).2,
                         tlog := w.tlog ++ ((m e w.w).2.log.drop w.w.log.length).map (.act w.now) })

/-- process.rs:419, 605, 804 `Instant::now` (which never goes back) -/
def instant : TM T Nat := fun _ w =>
  (.ok (w.now + w.ahead.headD 0), { w with now := w.now + w.ahead.headD 0, ahead := w.ahead.tail })

/-- process.rs:419, 605 `self.height_start = Instant::now()` -/
def startWatch : TM T Unit := fun _ w =>
  (.ok (), { w with now := w.now + w.ahead.headD 0, ahead := w.ahead.tail, heightStart := w.now + w.ahead.headD 0 })

/-- process.rs:804 `self.height_start` is read -/
def watch : TM T Nat := fun _ w => (.ok w.heightStart, w)

/-- process.rs:816 `sleep` (it may last longer than asked for) -/
def sleepFor (ms : Nat) : TM T Unit := fun _ w =>
  (.ok (), { w with now := w.now + ms + w.ahead.headD 0, ahead := w.ahead.tail, tlog := w.tlog ++ [.sleep w.now ms] })

/-- process.rs:118-190 `State::run`: see `M.logged` -/
def logged (m : TM T Unit) : TM T Unit := fun e w =>
  match m e w with
  | (.ok _, w') => (.ok (), w')
  | (.error .panic, w') => (.error .panic, w')
  | (.error _, w') => (.ok (), w')

end TM

open TM

section
variable {T : Type} [ContentCodec T] [DecidableEq T]

/-- process.rs:73-115 `State::new`, at time `t`. -/
def TWorld.new (addr : Address) (initHeight interval : Nat) (l : List Node) (t : Nat) : TWorld T :=
  { w := ⟨State.new addr initHeight interval l, []⟩, now := t, heightStart := t, ahead := [], tlog := [] }

/-- The end of process.rs:390-446 `State::goto_new_height`, after the clock is set (lines 420-445). -/
def adoptTail (status : Status) : M T Unit := do
  M.modify fun s => { s with
    authority := Authority.update status.authorityList,
    blockInterval := status.interval.getD s.blockInterval,
    proposals := s.proposals.flush (status.height - 1),
    votes := s.votes.flush (status.height - 1),
    hashWithBlock := [],
    chokes := .new }
  let s ← M.get
  match ← M.ask fun e => s.proposals.getHeightProposals e.sh status.height with
  | (some l, ps) =>
    M.modify fun s => { s with proposals := ps }
    reCheck (l.map .signedProposal)
  | (none, _) => pure ()
  let s ← M.get
  match ← M.ask fun e => s.votes.getHeightVotes e.sh status.height with
  | (some (vs, qcs), vc) =>
    M.modify fun s => { s with votes := vc }
    reCheck (vs.map .signedVote)
    reCheck (qcs.map .aggregatedVote)
  | (none, _) => pure ()
  M.emit (.trigger (stTrigger (.newHeight status.toSMR) [] none INIT_ROUND status.height))

/-- process.rs:390-446 `State::goto_new_height` -/
def tGotoNewHeight (status : Status) : TM T Unit := do
  let s ← plain M.get
  if status.height ≤ s.height then pure ()
  else
    plain (M.modify fun s => { s with height := status.height, round := INIT_ROUND,
                                      consensusPower := status.isConsensusNode s.address })
    if status.isConsensusNode s.address = false then pure ()
    else
      plain (saveWal .propose none)
      startWatch
      plain (adoptTail status)

/-- The end of process.rs:582-658 `State::handle_signed_proposal`, for a proposal that is not filtered (lines 616-657). -/
def takeProposal (sp : SignedProposal T) : M T Unit := do
  let p := sp.proposal
  M.modify fun s => { s with hashWithBlock := s.hashWithBlock.insert p.blockHash p.content }
  let s ← M.get
  let ps ← M.lift (s.proposals.insert s.height s.round sp)
  M.modify fun s => { s with proposals := ps }
  M.emit (.trigger (stTrigger .proposal p.blockHash (p.lock.map PoLC.lockRound) p.round p.height))
  checkBlock p.blockHash p.content

/-- process.rs:582-658 `State::handle_signed_proposal`: the clock is set before the proposal is filtered. -/
def tHandleSignedProposal (sp : SignedProposal T) : TM T Unit := do
  plain (verifyProposer sp.proposal.height sp.proposal.round sp.proposal.proposer)
  startWatch
  if ← plain (filterSignedProposal sp) then pure ()
  else plain (takeProposal sp)

/-- The leader's part of process.rs:452-567 `State::handle_new_round` (lines 500-566). -/
def proposeTail (lockRound : Option Nat) (lockProposal : Option Hash) : M T Unit := do
  M.modify fun s => { s with isLeader := true }
  let (block, hash, polc) ← proposalParts lockRound lockProposal
  M.modify fun s => { s with hashWithBlock :=
    match s.hashWithBlock.get? hash with
    | some _ => s.hashWithBlock
    | none => s.hashWithBlock.insert hash block }
  let s ← M.get
  let sp ← signProposal { height := s.height, round := s.round, content := block,
                          blockHash := hash, lock := polc, proposer := s.address }
  broadcast (.signedProposal sp)
  M.emit (.trigger (stTrigger .proposal hash lockRound s.round s.height))
  checkBlock hash block

/-- process.rs:452-567 `State::handle_new_round` -/
def tHandleNewRound (newRound : Nat) (lockRound : Option Nat) (lockProposal : Option Hash) (f : FromWhere) :
    TM T Unit := do
  let s ← plain M.get
  if newRound ≠ INIT_ROUND then
    plain (reportViewChange s.round (s.viewChangeReason s.round f))
  plain (M.modify fun s => { s with round := newRound, isLeader := false })
  if lockRound.isSome ≠ lockProposal.isSome then plain (M.fail .proposalErr)
  else
    plain (setUpdateFrom f)
    plain (saveWalWithLockRound .propose lockRound)
    if (← plain isProposer) = false then
      let s ← plain M.get
      match s.proposals.get s.height s.round with
      | .ok sp => tHandleSignedProposal sp
      | .error _ => pure ()
    else plain (proposeTail lockRound lockProposal)

/-- The beginning of process.rs:746-821 `State::handle_commit`, up to the answer of `commit()` (lines 746-803). -/
def commitHead (hash : Hash) : M T Status := do
  let s ← M.get
  let content ← M.some! (s.hashWithBlock.get? hash) .other
  let qc ← M.some! (s.votes.getQcByHash s.height hash .precommit) .storageErr
  saveWal .commit (some { lockRound := s.round, lockVotes := qc, content := content })
  let c : Commit T :=
    { height := s.height, content := content,
      proof := { height := s.height, round := qc.round, blockHash := hash, signature := qc.signature } }
  let r ← M.ask fun e => e.commit s.height c
  M.emit (.commitCall s.height c r)
  let status ← M.some! r .other
  M.modify fun s => { s with authority := Authority.update status.authorityList }
  pure status

/-- process.rs:746-821 `State::handle_commit` -/
def tHandleCommit (hash : Hash) : TM T Unit := do
  let status ← plain (commitHead hash)
  let now ← instant
  let begun ← watch
  let cost := now - begun
  let mine ← plain (nextProposer status.height INIT_ROUND)
  let s ← plain M.get
  if mine = true ∧ cost < s.blockInterval then
    sleepFor (s.blockInterval - cost)
    tGotoNewHeight status
  else tGotoNewHeight status

/-- process.rs:1686-1740 `State::start_with_wal` -/
def tStartWithWal : TM T Unit := do
  let s ← plain M.get
  if s.consensusPower = false then pure ()
  else
    match ← plain loadWal with
    | none => if s.height ≠ INIT_HEIGHT then plain walLost else pure ()
    | some w =>
      plain (M.modify fun s => { s with height := w.height, round := w.round })
      let l ← plain isProposer
      plain (M.modify fun s => { s with isLeader := l, updateFrom := w.from })
      match w.lock with
      | some lock =>
        plain (M.modify fun s => { s with
          votes := s.votes.setQc lock.lockVotes,
          hashWithBlock := s.hashWithBlock.insert lock.lockVotes.blockHash lock.content })
      | none => pure ()
      if w.step = .commit then
        match w.lock with
        | none => plain (M.fail .loadWalErr)
        | some lock => tHandleCommit lock.lockVotes.blockHash
      else
        if w.step = .brake then plain (handleBrake w.round (w.lock.map WalLock.lockRound))
        plain (M.emit (.trigger { stTrigger .walInfo [] none w.round w.height with walInfo := some w.intoSmrBase }))

/-- process.rs:194-257 `State::handle_msg` -/
def tHandleMsg (m : OverlordMsg T) : TM T Unit := do
  let s ← plain M.get
  if s.consensusPower = false ∧ m.isRichStatus = false then pure ()
  else
    match m with
    | .signedProposal sp => logged (tHandleSignedProposal sp)
    | .aggregatedVote av => plain (M.logged (handleAggregatedVote av))
    | .signedVote sv => plain (M.logged (handleSignedVote sv))
    | .signedChoke sc => plain (M.logged (handleSignedChoke sc))
    | .richStatus rs => logged (tGotoNewHeight rs)
    | .stop =>
      plain (M.emit (.trigger (stTrigger .stop [] none s.round s.height)))
      plain (M.modify fun s => { s with stopped := true })

/-- process.rs:260-330 `State::handle_event` -/
def tHandleEvent (ev : SMREvent) : TM T Unit :=
  match ev with
  | .newRoundInfo _ round lockRound lockProposal f _ _ => logged (tHandleNewRound round lockRound lockProposal f)
  | .commit hash => logged (tHandleCommit hash)
  | ev => plain (handleEvent ev)

/-- One iteration of process.rs:118-190 `State::run`. -/
def tRunArm (i : Input T) : TM T Bool :=
  match i with
  | .start => do logged tStartWithWal; pure true
  | .event ev => do
    let s ← plain M.get
    if s.stopped then pure false
    else if s.consensusPower = false then pure true
    else
      logged (tHandleEvent ev)
      pure true
  | .verified m => do logged (tHandleMsg m); pure true
  | i => plain (runArm i)

end

end Overlord
