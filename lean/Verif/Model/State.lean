import Verif.Model.Collection
import Verif.Model.Codec

/-!
# The State module

Models `/repo/src/state/process.rs` completely (every handler and the four arms of the run loop) and
`/repo/src/state/parallel.rs`.

A handler runs in the monad `M`: it reads an environment (what the application, the storage and the
cryptography answer during this call, and the iteration order of hash maps), updates the node's state and
appends to a log of effects, also when it ends with an error.

Simplifications:
* contexts, log lines and tracing are dropped; time is dropped (`height_start`, and the `sleep` of a
  leader that commits before its interval is over: see `Model/Clock.lean`);
* sending on the unbounded channels always succeeds;
* `Consensus::report_error` is called only if sending `Stop` to the voting state machine fails
  (process.rs:178-188), which does not happen here: errors of handlers are logged, not reported;
* the outcome of `broadcast_to_other` / `transmit_to_relayer` is ignored by the code and here.
-/

namespace Overlord

/-- lib.rs:132-161 `Crypto`, for the node itself (`sign` uses its private key). -/
structure Crypto where
  hash : Bytes → Hash
  sign : Hash → Option Signature
  aggregate : List Signature → List Address → Option Signature
  verifySig : Signature → Hash → Address → Bool
  verifyAgg : Signature → Hash → List Address → Bool

/-- Answers during one handler call: lib.rs:57-110 `Consensus`, lib.rs:123-129 `Wal`, lib.rs:132-161 `Crypto`, the leader mode
and hash map orders. `walLoad = none` is an error, `some none` an empty log. -/
structure Env (T : Type) where
  crypto : Crypto
  mode : LeaderMode
  sh : Shuffle
  walSave : Bytes → Bool
  walLoad : Option (Option Bytes)
  getBlock : Nat → Option (T × Hash)
  commit : Nat → Commit T → Option Status

/-- What a handler does outside the state. -/
inductive Effect (T : Type) where
  /-- a trigger sent to the voting state machine -/
  | trigger (t : SMRTrigger)
  /-- `Consensus::broadcast_to_other` -/
  | broadcast (m : OverlordMsg T)
  /-- `Consensus::transmit_to_relayer` -/
  | transmit (dest : Address) (m : OverlordMsg T)
  /-- the node's own vote is put in its own pool (an internal action, recorded here because the vote
  then counts like a transmitted one) -/
  | ownVote (v : SignedVote)
  /-- `Wal::save` with its outcome -/
  | saveWal (w : WalInfo T) (ok : Bool)
  /-- `Consensus::get_block` -/
  | getBlock (height : Nat) (res : Option (T × Hash))
  /-- `Consensus::commit` with its outcome -/
  | commitCall (height : Nat) (c : Commit T) (res : Option Status)
  /-- a task that calls `Consensus::check_block` is spawned -/
  | spawnCheck (height round : Nat) (hash : Hash) (block : T)
  /-- a signature verification task is spawned -/
  | spawnVerify (m : OverlordMsg T) (a : Authority)
  /-- the message is put in the queue of verified messages directly -/
  | toVerified (m : OverlordMsg T)
  /-- `Consensus::report_view_change` -/
  | reportViewChange (height round : Nat) (reason : ViewChangeReason)
deriving DecidableEq, Repr

/-- process.rs:39-63 `State`, without channels, time and the injected objects. -/
structure State (T : Type) where
  height : Nat
  round : Nat
  address : Address
  proposals : ProposalCollector T
  votes : VoteCollector
  chokes : ChokeCollector
  authority : Authority
  hashWithBlock : AMap Hash T
  isFullTransaction : AMap Hash Bool
  isLeader : Bool
  leaderAddress : Address
  updateFrom : UpdateFrom
  blockInterval : Nat
  consensusPower : Bool
  stopped : Bool
deriving DecidableEq, Repr

/-- The state and the effects so far, oldest first. -/
structure World (T : Type) where
  st : State T
  log : List (Effect T)
deriving DecidableEq, Repr

/-- Handlers: environment, state and log, errors that keep the state (`&mut self`). -/
def M (T α : Type) := Env T → World T → Except Err α × World T

namespace M
variable {T α β : Type}

protected def pure (a : α) : M T α := fun _ w => (.ok a, w)
protected def bind (m : M T α) (f : α → M T β) : M T β := fun e w =>
  match m e w with
  | (.ok a, w') => f a e w'
  | (.error x, w') => (.error x, w')

instance : Monad (M T) where
  pure := M.pure
  bind := M.bind

def fail (x : Err) : M T α := fun _ w => (.error x, w)
def get : M T (State T) := fun _ w => (.ok w.st, w)
/-- Read something from the environment. -/
def ask (f : Env T → α) : M T α := fun e w => (.ok (f e), w)
def modify (f : State T → State T) : M T Unit := fun _ w => (.ok (), { w with st := f w.st })
def emit (x : Effect T) : M T Unit := fun _ w => (.ok (), { w with log := w.log ++ [x] })
/-- `?` on a result. -/
def lift (x : Except Err α) : M T α := fun _ w => (x, w)
/-- `ok_or(e)?` -/
def some! (x : Option α) (e : Err) : M T α := fun _ w =>
  match x with
  | some a => (.ok a, w)
  | none => (.error e, w)
/-- `if let Err(e) = .. { log }`: an error is swallowed, a panic is not. -/
def logged (m : M T Unit) : M T Unit := fun e w =>
  match m e w with
  | (.ok _, w') => (.ok (), w')
  | (.error .panic, w') => (.error .panic, w')
  | (.error _, w') => (.ok (), w')
/-- `for x in l { f(x)?; }` -/
def forEach (l : List α) (f : α → M T Unit) : M T Unit :=
  match l with
  | [] => M.pure ()
  | a :: l => M.bind (f a) fun _ => forEach l f

end M

open M

/-- process.rs:30 `FUTURE_HEIGHT_GAP` -/
def FUTURE_HEIGHT_GAP : Nat := 5
/-- process.rs:31 `FUTURE_ROUND_GAP` -/
def FUTURE_ROUND_GAP : Nat := 10

/-- process.rs:1884-1898 `mock_init_qc` -/
def mockInitQc : AggregatedVote :=
  { signature := ⟨[], []⟩, voteType := .precommit, height := 0, round := 0, blockHash := [], leader := [] }

/-- The trigger records the handlers build (`source: State`, `wal_info: None`). -/
def stTrigger (ty : TriggerType) (hash : Hash) (lockRound : Option Nat) (round height : Nat) : SMRTrigger :=
  { triggerType := ty, source := .state, hash, lockRound, round, height, walInfo := none }

section
variable {T : Type}

/-- process.rs:73-115 `State::new` -/
def State.new (addr : Address) (initHeight interval : Nat) (l : List Node) : State T :=
  let auth := Authority.update l
  { height := initHeight, round := INIT_ROUND, address := addr, proposals := [], votes := [],
    chokes := .new, authority := auth, hashWithBlock := [], isFullTransaction := [], isLeader := false,
    leaderAddress := [], updateFrom := .precommitQC mockInitQc, blockInterval := interval,
    consensusPower := auth.contains addr, stopped := false }

/-! ## Small methods -/

/-- process.rs:1444-1449 `State::verify_address` -/
def verifyAddress (a : Address) : M T Unit := do
  let s ← get
  if s.authority.contains a then pure () else fail .invalidAddress

/-- process.rs:1434-1441 `State::verify_proposer` -/
def verifyProposer (height round : Nat) (a : Address) : M T Unit := do
  verifyAddress a
  let s ← get
  let mode ← ask Env.mode
  let p ← lift (s.authority.getProposer mode height round)
  if a ≠ p then fail .proposalErr else pure ()

/-- process.rs:1353-1376 `State::is_proposer` -/
def isProposer : M T Bool := do
  let s ← get
  let mode ← ask Env.mode
  let p ← lift (s.authority.getProposer mode s.height s.round)
  if p = s.address then
    modify fun s => { s with isLeader := true, leaderAddress := s.address }
    pure true
  else
    modify fun s => { s with isLeader := false, leaderAddress := p }
    pure false

/-- process.rs:1378-1381 `State::next_proposer` -/
def nextProposer (height round : Nat) : M T Bool := do
  let s ← get
  let mode ← ask Env.mode
  let p ← lift (s.authority.getProposer mode height round)
  pure (decide (s.address = p))

/-- process.rs:1396-1408 `State::sign_vote` -/
def signVote (v : Vote) : M T SignedVote := do
  let s ← get
  let c ← ask Env.crypto
  let sig ← some! (c.sign (c.hash (encVote v))) .cryptoErr
  pure { voter := s.address, signature := sig, vote := v }

/-- process.rs:1410-1432 `State::aggregate_signatures` -/
def aggregateSignatures (sigs : List Signature) (voters : List Address) : M T Signature := do
  let c ← ask Env.crypto
  some! (c.aggregate sigs voters) .cryptoErr

/-- process.rs:1451-1468 `State::transmit` -/
def transmit (m : OverlordMsg T) : M T Unit := do
  let s ← get
  emit (.transmit s.leaderAddress m)

/-- process.rs:1470-1484 `State::broadcast` -/
def broadcast (m : OverlordMsg T) : M T Unit := emit (.broadcast m)

/-- process.rs:1490-1493 `State::report_view_change` -/
def reportViewChange (round : Nat) (reason : ViewChangeReason) : M T Unit := do
  let s ← get
  emit (.reportViewChange s.height round reason)

/-- process.rs:1597-1611 `State::check_block` (process.rs:1860-1882 `check_current_block` runs in the spawned task). -/
def checkBlock (hash : Hash) (block : T) : M T Unit := do
  let s ← get
  emit (.spawnCheck s.height s.round hash block)

/-- process.rs:1759-1767 `State::try_get_full_txs` -/
def State.tryGetFullTxs (s : State T) (hash : Hash) : Bool :=
  if hash = [] then true
  else match s.isFullTransaction.get? hash with
    | some r => r
    | none => false

/-- process.rs:1833-1856 `State::filter_message` (`u64` additions wrap) -/
def State.filterMessage (s : State T) (height round : Nat) : Bool :=
  if height < s.height ∨ (height = s.height ∧ round < s.round) then true
  else if (s.height + FUTURE_HEIGHT_GAP) % U64 < height then true
  else if (height = s.height ∧ (s.round + FUTURE_ROUND_GAP) % U64 < round) ∨
      (height > s.height ∧ round > FUTURE_ROUND_GAP) then true
  else false

/-- process.rs:1495-1544 `State::view_change_reason` -/
def State.viewChangeReason (s : State T) (round : Nat) (f : FromWhere) : ViewChangeReason :=
  if round ≠ f.getRound then f.toReason round
  else if s.isLeader then
    match s.votes.getQcById s.height round .prevote with
    | .ok qc =>
      if qc.blockHash ≠ [] then .leaderReceivedVoteBelowThreshold .precommit
      else .leaderReceivedVoteBelowThreshold .prevote
    | .error _ => .leaderReceivedVoteBelowThreshold .prevote
  else
    match s.proposals.get s.height round with
    | .error _ => .noProposalFromNetwork
    | .ok sp =>
      match s.isFullTransaction.get? sp.proposal.blockHash with
      | none => .checkBlockNotPass
      | some _ =>
        match s.votes.getQcById s.height round .prevote with
        | .error _ => .noPrevoteQCFromNetwork
        | .ok _ =>
          match s.votes.getQcById s.height round .precommit with
          | .error _ => .noPrecommitQCFromNetwork
          | .ok _ => .others

/-- process.rs:1769-1800 `State::set_update_from` -/
def setUpdateFrom (f : FromWhere) : M T Unit := do
  let s ← get
  let u ← match f with
    | .prevoteQC r => do
      let qc ← lift (s.votes.getQcById s.height r .prevote)
      pure (UpdateFrom.prevoteQC qc)
    | .precommitQC r => do
      let qc ← if r = U64MAX then pure mockInitQc else lift (s.votes.getQcById s.height r .precommit)
      pure (UpdateFrom.precommitQC qc)
    | .chokeQC r => do
      let qc ← some! (s.chokes.getQc r) .brakeErr
      pure (UpdateFrom.chokeQC qc)
  modify fun s => { s with updateFrom := u }

/-- process.rs:1144-1170 `State::counting_vote` -/
def countVotes (ty : VoteType) : M T (Option Hash) := do
  let s ← get
  let r ← ask fun e => countingVote e.sh s.authority s.votes s.height s.round ty
  lift r

/-- process.rs:1248-1292 `State::generate_qc` -/
def generateQc (hash : Hash) (ty : VoteType) : M T AggregatedVote := do
  let s ← get
  let r ← ask fun e => s.votes.getVotes e.sh s.height s.round ty hash
  let vs ← lift r
  let vs := sortVotes vs
  let voters := vs.map SignedVote.voter
  let sig ← aggregateSignatures (vs.map SignedVote.signature) voters
  pure { signature := { signature := sig, addressBitmap := s.authority.bitmapOf voters },
         voteType := ty, height := s.height, round := s.round, blockHash := hash, leader := s.address }

/-- process.rs:1546-1591 `State::check_choke_above_threshold` (`get_chokes(round).unwrap()` panics on `None`) -/
def checkChokeAboveThreshold : M T Unit := do
  let s ← get
  match s.chokes.maxRoundAboveThreshold s.authority.len with
  | none => pure ()
  | some round =>
    if round < s.round then pure ()
    else
      let r ← ask fun e => s.chokes.getChokes e.sh round
      let scs ← some! r .panic
      let voters := scs.map SignedChoke.address
      let sig ← aggregateSignatures (scs.map SignedChoke.signature) voters
      let qc : AggregatedChoke := { height := s.height, signature := sig, round := round, voters := voters }
      modify fun s => { s with chokes := s.chokes.setQc round qc }
      emit (.trigger (stTrigger .continueRound [] none (inc64 round) s.height))

/-- process.rs:1222-1246 `State::handle_aggregated_choke` -/
def handleAggregatedChoke (ac : AggregatedChoke) : M T Unit := do
  let s ← get
  if ac.voters.length * 3 ≤ s.authority.len * 2 then fail .brakeErr
  else
    modify fun s => { s with chokes := s.chokes.setQc ac.round ac }
    emit (.trigger (stTrigger .continueRound [] none (inc64 ac.round) s.height))

/-- process.rs:978-1066 `State::handle_aggregated_vote` -/
def handleAggregatedVote (qc : AggregatedVote) : M T Unit := do
  let s ← get
  if qc.height < s.height then pure ()
  else if qc.height > s.height then
    if (s.height + FUTURE_HEIGHT_GAP) % U64 > qc.height ∧ qc.round < FUTURE_ROUND_GAP then
      modify fun s => { s with votes := s.votes.setQc qc }
    else pure ()
  else if qc.voteType = .prevote ∧ qc.round < s.round then pure ()
  else if qc.voteType = .precommit ∧ qc.blockHash = [] ∧ qc.round < s.round then pure ()
  else
    modify fun s => { s with votes := s.votes.setQc qc }
    if qc.blockHash ≠ [] ∧ s.tryGetFullTxs qc.blockHash = false then pure ()
    else emit (.trigger (stTrigger qc.voteType.toTrigger qc.blockHash none qc.round qc.height))

/-- process.rs:1180-1220 `State::handle_signed_choke` -/
def handleSignedChoke (sc : SignedChoke) : M T Unit := do
  let s ← get
  if sc.choke.height ≠ s.height then pure ()
  else if sc.choke.round < s.round then pure ()
  else if sc.choke.round > s.round then
    match sc.choke.from with
    | .prevoteQC qc => handleAggregatedVote qc
    | .precommitQC qc => handleAggregatedVote qc
    | .chokeQC qc => handleAggregatedChoke qc
  else
    modify fun s => { s with chokes := s.chokes.insert sc.choke.round sc }
    checkChokeAboveThreshold

/-- process.rs:842-950 `State::handle_signed_vote` -/
def handleSignedVote (sv : SignedVote) : M T Unit := do
  let s ← get
  let ty := sv.vote.voteType
  if s.filterMessage sv.vote.height sv.vote.round then pure ()
  else
    verifyAddress sv.voter
    match s.votes.getQcById sv.vote.height sv.vote.round ty with
    | .ok _ => pure ()
    | .error _ =>
      modify fun s => { s with votes := s.votes.insertVote sv.vote.blockHash sv sv.voter }
      if sv.vote.height > s.height then pure ()
      else
        match ← countVotes ty with
        | none => pure ()
        | some hash =>
          let qc ← generateQc hash ty
          modify fun s => { s with votes := s.votes.setQc qc }
          broadcast (.aggregatedVote qc)
          if s.tryGetFullTxs hash = false then pure ()
          else emit (.trigger (stTrigger ty.toTrigger hash none qc.round qc.height))

/-- process.rs:1074-1142 `State::vote_process` -/
def voteProcess (ty : VoteType) : M T Unit := do
  let s ← get
  if s.isLeader = false then
    match s.votes.getQcById s.height s.round ty with
    | .ok qc =>
      if s.tryGetFullTxs qc.blockHash = false then pure ()
      else emit (.trigger (stTrigger qc.voteType.toTrigger qc.blockHash none s.round s.height))
    | .error _ => pure ()
  else
    match ← countVotes ty with
    | none => pure ()
    | some hash =>
      let qc ← generateQc hash ty
      modify fun s => { s with votes := s.votes.setQc qc }
      broadcast (.aggregatedVote qc)
      if s.tryGetFullTxs hash = false then pure ()
      else emit (.trigger (stTrigger ty.toTrigger hash none s.round s.height))

/-- process.rs:332-379 `State::handle_resp` -/
def handleResp (r : VerifyResp) : M T Unit := do
  let s ← get
  if r.height ≠ s.height then pure ()
  else
    modify fun s => { s with isFullTransaction := s.isFullTransaction.insert r.blockHash r.isPass }
    match s.votes.getQcByHash s.height r.blockHash .precommit with
    | some qc => emit (.trigger (stTrigger .precommitQC qc.blockHash none qc.round qc.height))
    | none =>
      match s.votes.getQcByHash s.height r.blockHash .prevote with
      | some qc =>
        if qc.round = s.round then
          emit (.trigger (stTrigger .prevoteQC qc.blockHash none qc.round qc.height))
        else pure ()
      | none => pure ()

/-- process.rs:1294-1312 `State::re_check_proposals`, process.rs:1314-1332 `State::re_check_votes`,
process.rs:1334-1349 `State::re_check_qcs` -/
def reCheck (l : List (OverlordMsg T)) : M T Unit :=
  forEach l fun m => do
    let s ← get
    emit (.spawnVerify m s.authority)

variable [ContentCodec T]

/-- process.rs:1383-1394 `State::sign_proposal`; encoding a content that does not encode panics. -/
def signProposal (p : Proposal T) : M T (SignedProposal T) := do
  let c ← ask Env.crypto
  let b ← some! (encProposal p) .panic
  let sig ← some! (c.sign (c.hash b)) .cryptoErr
  pure { signature := sig, proposal := p }

/-- process.rs:1613-1634 `State::save_wal` -/
def saveWal (step : Step) (lock : Option (WalLock T)) : M T Unit := do
  let s ← get
  let save ← ask Env.walSave
  let w : WalInfo T := { height := s.height, round := s.round, step, lock, «from» := s.updateFrom }
  let b ← some! (encWalInfo w) .panic
  emit (.saveWal w (save b))
  if save b then pure () else fail .saveWalErr

/-- process.rs:1636-1665 `State::save_wal_with_lock_round` -/
def saveWalWithLockRound (step : Step) (lockRound : Option Nat) : M T Unit := do
  let s ← get
  match lockRound with
  | none => saveWal step none
  | some r =>
    match s.votes.getQcById s.height r .prevote with
    | .error _ => fail .other
    | .ok qc =>
      let block ← some! (s.hashWithBlock.get? qc.blockHash) .other
      saveWal step (some { lockRound := r, lockVotes := qc, content := block })

/-! ## Handlers -/

/-- process.rs:390-446 `State::goto_new_height` -/
def gotoNewHeight (status : Status) : M T Unit := do
  let s ← get
  if status.height ≤ s.height then pure ()
  else
    modify fun s => { s with height := status.height, round := INIT_ROUND,
                             consensusPower := status.isConsensusNode s.address }
    if status.isConsensusNode s.address = false then pure ()
    else
      saveWal .propose none
      modify fun s => { s with
        authority := Authority.update status.authorityList,
        blockInterval := status.interval.getD s.blockInterval,
        proposals := s.proposals.flush (status.height - 1),
        votes := s.votes.flush (status.height - 1),
        hashWithBlock := [],
        chokes := .new }
      let s ← get
      match ← ask fun e => s.proposals.getHeightProposals e.sh status.height with
      | (some l, ps) =>
        modify fun s => { s with proposals := ps }
        reCheck (l.map .signedProposal)
      | (none, _) => pure ()
      let s ← get
      match ← ask fun e => s.votes.getHeightVotes e.sh status.height with
      | (some (vs, qcs), vc) =>
        modify fun s => { s with votes := vc }
        reCheck (vs.map .signedVote)
        reCheck (qcs.map .aggregatedVote)
      | (none, _) => pure ()
      emit (.trigger (stTrigger (.newHeight status.toSMR) [] none INIT_ROUND status.height))

/-- process.rs:1806-1831 `State::filter_signed_proposal` -/
def filterSignedProposal [DecidableEq T] (sp : SignedProposal T) : M T Bool := do
  let s ← get
  let height := sp.proposal.height
  let round := sp.proposal.round
  if s.filterMessage height round then pure true
  else if (height = s.height ∧ round ≠ s.round) ∨ height > s.height then
    let ps ← lift (s.proposals.insert height round sp)
    modify fun s => { s with proposals := ps }
    pure true
  else pure false

/-- process.rs:582-658 `State::handle_signed_proposal` -/
def handleSignedProposal [DecidableEq T] (sp : SignedProposal T) : M T Unit := do
  let p := sp.proposal
  verifyProposer p.height p.round p.proposer
  if ← filterSignedProposal sp then pure ()
  else
    modify fun s => { s with hashWithBlock := s.hashWithBlock.insert p.blockHash p.content }
    let s ← get
    let ps ← lift (s.proposals.insert s.height s.round sp)
    modify fun s => { s with proposals := ps }
    emit (.trigger (stTrigger .proposal p.blockHash (p.lock.map PoLC.lockRound) p.round p.height))
    checkBlock p.blockHash p.content

/-- The block, hash and PoLC a leader proposes: the middle part of process.rs:452-567 `State::handle_new_round`. -/
def proposalParts (lockRound : Option Nat) (lockProposal : Option Hash) : M T (T × Hash × Option PoLC) := do
  let s ← get
  match lockRound with
  | none =>
    let r ← ask fun e => e.getBlock s.height
    emit (.getBlock s.height r)
    let (b, h) ← some! r .other
    pure (b, h, none)
  | some r =>
    let hash ← some! lockProposal .panic
    let b ← some! (s.hashWithBlock.get? hash) .proposalErr
    match s.votes.getQcById s.height r .prevote with
    | .ok qc => pure (b, hash, some { lockRound := r, lockVotes := qc })
    | .error _ => fail .proposalErr

/-- process.rs:452-567 `State::handle_new_round` -/
def handleNewRound [DecidableEq T] (newRound : Nat) (lockRound : Option Nat) (lockProposal : Option Hash)
    (f : FromWhere) : M T Unit := do
  let s ← get
  if newRound ≠ INIT_ROUND then
    reportViewChange s.round (s.viewChangeReason s.round f)
  modify fun s => { s with round := newRound, isLeader := false }
  if lockRound.isSome ≠ lockProposal.isSome then fail .proposalErr
  else
    setUpdateFrom f
    saveWalWithLockRound .propose lockRound
    if (← isProposer) = false then
      let s ← get
      match s.proposals.get s.height s.round with
      | .ok sp => handleSignedProposal sp
      | .error _ => pure ()
    else
      modify fun s => { s with isLeader := true }
      let (block, hash, polc) ← proposalParts lockRound lockProposal
      modify fun s => { s with hashWithBlock :=
        match s.hashWithBlock.get? hash with
        | some _ => s.hashWithBlock
        | none => s.hashWithBlock.insert hash block }
      let s ← get
      let sp ← signProposal { height := s.height, round := s.round, content := block,
                              blockHash := hash, lock := polc, proposer := s.address }
      broadcast (.signedProposal sp)
      emit (.trigger (stTrigger .proposal hash lockRound s.round s.height))
      checkBlock hash block

/-- process.rs:660-705 `State::handle_vote_event` -/
def handleVoteEvent (hash : Hash) (ty : VoteType) (lockRound : Option Nat) : M T Unit := do
  let s ← get
  let sv ← signVote { height := s.height, round := s.round, voteType := ty, blockHash := hash }
  saveWalWithLockRound ty.toStep lockRound
  if s.isLeader then
    modify fun s => { s with votes := s.votes.insertVote hash sv s.address }
    emit (.ownVote sv)
  else transmit (.signedVote sv)
  voteProcess ty

/-- process.rs:707-744 `State::handle_brake` -/
def handleBrake (round : Nat) (lockRound : Option Nat) : M T Unit := do
  let s ← get
  let c ← ask Env.crypto
  if round ≠ s.round then fail .correctnessErr
  else
    let choke : Choke := { height := s.height, round := s.round, «from» := s.updateFrom }
    let sig ← some! (c.sign (c.hash (encHashChoke choke.toHash))) .cryptoErr
    let sc : SignedChoke := { signature := sig, choke := choke, address := s.address }
    modify fun s => { s with chokes := s.chokes.insert s.round sc }
    saveWalWithLockRound .brake lockRound
    broadcast (.signedChoke sc)
    checkChokeAboveThreshold

/-- process.rs:746-821 `State::handle_commit` -/
def handleCommit (hash : Hash) : M T Unit := do
  let s ← get
  let content ← some! (s.hashWithBlock.get? hash) .other
  let qc ← some! (s.votes.getQcByHash s.height hash .precommit) .storageErr
  saveWal .commit (some { lockRound := s.round, lockVotes := qc, content := content })
  let c : Commit T :=
    { height := s.height, content := content,
      proof := { height := s.height, round := qc.round, blockHash := hash, signature := qc.signature } }
  let r ← ask fun e => e.commit s.height c
  emit (.commitCall s.height c r)
  let status ← some! r .other
  modify fun s => { s with authority := Authority.update status.authorityList }
  let _ ← nextProposer status.height INIT_ROUND
  gotoNewHeight status

/-- process.rs:1667-1684 `State::wal_lost` -/
def walLost : M T Unit := do
  let s ← get
  emit (.trigger { stTrigger .walInfo [] none s.round s.height with
    walInfo := some { height := s.height, round := s.round, step := .propose, polc := none } })

/-- process.rs:1742-1756 `State::load_wal` -/
def loadWal : M T (Option (WalInfo T)) := do
  match ← ask Env.walLoad with
  | none => fail .loadWalErr
  | some none => pure none
  | some (some b) =>
    match decWalInfo b with
    | .ok w => pure (some w)
    | .error .bad => fail .loadWalErr
    | .error .panic => fail .panic

/-- process.rs:1686-1740 `State::start_with_wal` -/
def startWithWal : M T Unit := do
  let s ← get
  if s.consensusPower = false then pure ()
  else
    match ← loadWal with
    | none => if s.height ≠ INIT_HEIGHT then walLost else pure ()
    | some w =>
      modify fun s => { s with height := w.height, round := w.round }
      let l ← isProposer
      modify fun s => { s with isLeader := l, updateFrom := w.from }
      match w.lock with
      | some lock =>
        modify fun s => { s with
          votes := s.votes.setQc lock.lockVotes,
          hashWithBlock := s.hashWithBlock.insert lock.lockVotes.blockHash lock.content }
      | none => pure ()
      if w.step = .commit then
        match w.lock with
        | none => fail .loadWalErr
        | some lock => handleCommit lock.lockVotes.blockHash
      else
        if w.step = .brake then handleBrake w.round (w.lock.map WalLock.lockRound)
        emit (.trigger { stTrigger .walInfo [] none w.round w.height with walInfo := some w.intoSmrBase })

/-! ## Dispatch and the run loop -/

/-- process.rs:194-257 `State::handle_msg` -/
def handleMsg [DecidableEq T] (m : OverlordMsg T) : M T Unit := do
  let s ← get
  if s.consensusPower = false ∧ m.isRichStatus = false then pure ()
  else
    match m with
    | .signedProposal sp => logged (handleSignedProposal sp)
    | .aggregatedVote av => logged (handleAggregatedVote av)
    | .signedVote sv => logged (handleSignedVote sv)
    | .signedChoke sc => logged (handleSignedChoke sc)
    | .richStatus rs => logged (gotoNewHeight rs)
    | .stop =>
      emit (.trigger (stTrigger .stop [] none s.round s.height))
      modify fun s => { s with stopped := true }

/-- process.rs:260-330 `State::handle_event` (`SMREvent::Stop` is `unreachable!()`) -/
def handleEvent [DecidableEq T] (ev : SMREvent) : M T Unit := do
  match ev with
  | .newRoundInfo _ round lockRound lockProposal f _ _ =>
    logged (handleNewRound round lockRound lockProposal f)
  | .prevoteVote _ _ hash lockRound => logged (handleVoteEvent hash .prevote lockRound)
  | .precommitVote _ _ hash lockRound => logged (handleVoteEvent hash .precommit lockRound)
  | .commit hash => logged (handleCommit hash)
  | .brake height round lockRound => do
    let s ← get
    if height ≠ s.height then pure () else logged (handleBrake round lockRound)
  | .stop => fail .panic

/-- What the four arms of the select loop of process.rs:118-190 `State::run` receive; `start` is the call of
`start_with_wal` before the loop. -/
inductive Input (T : Type) where
  | start
  | raw (m : OverlordMsg T)
  | event (ev : SMREvent)
  | resp (r : VerifyResp)
  | verified (m : OverlordMsg T)
deriving DecidableEq, Repr

/-- One iteration of process.rs:118-190 `State::run`. `false`: the loop ends. A `.error .panic` result means that
the task panicked; other errors do not leave the arms. -/
def runArm [DecidableEq T] (i : Input T) : M T Bool := do
  match i with
  | .start => logged startWithWal; pure true
  | .raw m =>
    if m.isRichStatus then emit (.toVerified m); pure true
    else
      match m.getHeight? with
      | none => fail .panic
      | some h =>
        let s ← get
        if s.height < h then emit (.toVerified m); pure true
        else if s.height = h then emit (.spawnVerify m s.authority); pure true
        else pure true
  | .event ev =>
    let s ← get
    if s.stopped then pure false
    else if s.consensusPower = false then pure true
    else logged (handleEvent ev); pure true
  | .resp r =>
    let s ← get
    if s.consensusPower = false then pure true
    else logged (handleResp r); pure true
  | .verified m => logged (handleMsg m); pure true

/-- The state after the loop of process.rs:118-190 `State::run` has handled the inputs one after the other;
`none` if the loop ended or the task panicked. -/
def State.after [DecidableEq T] (s : State T) : List (Env T × Input T) → Option (State T)
  | [] => some s
  | (e, i) :: ins =>
    match runArm i e ⟨s, []⟩ with
    | (.ok true, w) => State.after w.st ins
    | _ => none

/-- All effects while the loop of process.rs:118-190 `State::run` handles the inputs. -/
def State.trace [DecidableEq T] (s : State T) : List (Env T × Input T) → List (Effect T)
  | [] => []
  | (e, i) :: ins =>
    match runArm i e ⟨s, []⟩ with
    | (.ok true, w) => w.log ++ State.trace w.st ins
    | (_, w) => w.log

/-! ## parallel.rs -/

/-- parallel.rs:97-103 `get_voters`: the result of the threshold test is dropped, only its error is kept. -/
def qcVoters (bitmap : Bytes) (a : Authority) : Except Err (List Address) := do
  let _ ← a.isAboveThreshold bitmap
  a.getVoters bitmap

/-- parallel.rs:105-130 `verify_qc`: whether the message is forwarded. -/
def verifyQc (c : Crypto) (qc : AggregatedVote) (a : Authority) : Bool :=
  match qcVoters qc.signature.addressBitmap a with
  | .ok voters => c.verifyAgg qc.signature.signature (c.hash (encVote qc.toVote)) voters
  | .error _ => false

/-- parallel.rs:13-95 `parallel_verify`: whether the spawned task puts the message in the queue of verified
messages. (A content that does not encode panics in the task: not forwarded.) -/
def verifyTask (c : Crypto) (m : OverlordMsg T) (a : Authority) : Bool :=
  match m with
  | .signedProposal sp =>
    match encProposal sp.proposal with
    | none => false
    | some b =>
      if c.verifySig sp.signature (c.hash b) sp.proposal.proposer then
        match sp.proposal.lock with
        | some polc => verifyQc c polc.lockVotes a
        | none => true
      else false
  | .signedVote sv => c.verifySig sv.signature (c.hash (encVote sv.vote)) sv.voter
  | .aggregatedVote qc => verifyQc c qc a
  | .signedChoke sc => c.verifySig sc.signature (c.hash (encHashChoke sc.choke.toHash)) sc.address
  | .richStatus _ => false
  | .stop => false

end

end Overlord
