import Verif.Proofs.Wp

/-!
Every run of an arm of the State's loop is a sequence of micro-steps, each with the condition under which
the code takes it. Used to prove properties of all handlers by cases.
-/

set_option linter.unusedSimpArgs false
set_option linter.unusedVariables false

namespace Overlord
open M

variable {T : Type}

/-- The certificate built by `generateQc` from the votes `vs`. -/
def mkQc (s : State T) (vs : List SignedVote) (sig : Signature) (hash : Hash) (ty : VoteType) :
    AggregatedVote :=
  { signature := { signature := sig,
                   addressBitmap := s.authority.bitmapOf ((sortVotes vs).map SignedVote.voter) },
    voteType := ty, height := s.height, round := s.round, blockHash := hash, leader := s.address }

/-- The choke certificate built from the chokes `scs`. -/
def mkChokeQc (s : State T) (round : Nat) (sig : Signature) (scs : List SignedChoke) : AggregatedChoke :=
  { height := s.height, signature := sig, round := round, voters := scs.map SignedChoke.address }

/-- What is passed to `commit`. -/
def mkCommit (s : State T) (hash : Hash) (content : T) (qc : AggregatedVote) : Commit T :=
  { height := s.height, content := content,
    proof := { height := s.height, round := qc.round, blockHash := hash, signature := qc.signature } }

/-- The trigger that starts the voting state machine. -/
def walTrig (b : SMRBase) : SMRTrigger :=
  { stTrigger .walInfo [] none b.round b.height with walInfo := some b }

/-- The WAL record `saveWal` writes. -/
def walRec (s : State T) (step : Step) (lock : Option (WalLock T)) : WalInfo T :=
  { height := s.height, round := s.round, step, lock, «from» := s.updateFrom }

/-- The storage answered `ok` to the encoded record. -/
def Saved [ContentCodec T] (e : Env T) (w : WalInfo T) (ok : Bool) : Prop :=
  ∃ b, encWalInfo w = some b ∧ e.walSave b = ok

/-- The lock written by `saveWalWithLockRound`. -/
def WalLockOf (s : State T) (lr : Option Nat) (lock : Option (WalLock T)) : Prop :=
  match lr with
  | none => lock = none
  | some r => ∃ qc block, s.votes.getQcById s.height r .prevote = .ok qc ∧
      s.hashWithBlock.get? qc.blockHash = some block ∧
      lock = some { lockRound := r, lockVotes := qc, content := block }

/-- The state after a status has been adopted. -/
def State.moved (s : State T) (status : Status) : State T :=
  { s with height := status.height, round := INIT_ROUND,
           consensusPower := status.isConsensusNode s.address }

/-- The state after a status has been adopted by a validator. -/
def State.adopted (sh : Shuffle) (s : State T) (status : Status) : State T :=
  { s.moved status with
    authority := Authority.update status.authorityList,
    blockInterval := status.interval.getD s.blockInterval,
    proposals := ((s.proposals.flush (status.height - 1)).getHeightProposals sh status.height).2,
    votes := ((s.votes.flush (status.height - 1)).getHeightVotes sh status.height).2,
    hashWithBlock := [],
    chokes := .new }

/-- What is verified again when a status is adopted. -/
def State.recheck (sh : Shuffle) (s : State T) (status : Status) : List (OverlordMsg T) :=
  (((s.proposals.flush (status.height - 1)).getHeightProposals sh status.height).1.getD []).map .signedProposal ++
  (((s.votes.flush (status.height - 1)).getHeightVotes sh status.height).1.getD ([], [])).1.map .signedVote ++
  (((s.votes.flush (status.height - 1)).getHeightVotes sh status.height).1.getD ([], [])).2.map .aggregatedVote

/-- The justification recorded for the reason `f` of a round change. -/
def FromOf (s : State T) (f : FromWhere) (u : UpdateFrom) : Prop :=
  match f with
  | .prevoteQC r => ∃ qc, s.votes.getQcById s.height r .prevote = .ok qc ∧ u = .prevoteQC qc
  | .precommitQC r => ∃ qc, ((r = U64MAX ∧ qc = mockInitQc) ∨
      s.votes.getQcById s.height r .precommit = .ok qc) ∧ u = .precommitQC qc
  | .chokeQC r => ∃ qc, s.chokes.getQc r = some qc ∧ u = .chokeQC qc

/-- The events that make the State move to a round. -/
def NewRoundInput (i : Input T) (round : Nat) (lr : Option Nat) (lp : Option Hash) (f : FromWhere) : Prop :=
  ∃ h ni nc, i = .event (.newRoundInfo h round lr lp f ni nc)

/-- The events that order a vote. -/
def VoteInput (i : Input T) (ty : VoteType) (hash : Hash) (lr : Option Nat) : Prop :=
  ∃ h r, i = .event (match ty with
    | .prevote => .prevoteVote h r hash lr
    | .precommit => .precommitVote h r hash lr)

/-- Proposals are handled when they arrive verified, or from the collector on a new round. -/
def ProposalInput (i : Input T) (s : State T) (sp : SignedProposal T) : Prop :=
  i = .verified (.signedProposal sp) ∨
  ((∃ r lr lp f, NewRoundInput i r lr lp f) ∧ s.proposals.get s.height s.round = .ok sp)

/-- Certificates arrive verified, or inside a choke for a later round. -/
def QcInput (i : Input T) (s : State T) (qc : AggregatedVote) : Prop :=
  i = .verified (.aggregatedVote qc) ∨
  ∃ sc, i = .verified (.signedChoke sc) ∧ sc.choke.height = s.height ∧ s.round < sc.choke.round ∧
    (sc.choke.from = .prevoteQC qc ∨ sc.choke.from = .precommitQC qc)

inductive Micro [ContentCodec T] [DecidableEq T] (e : Env T) (i : Input T) :
    State T → List (Effect T) → State T → Prop
  /-- a certificate is stored -/
  | recvQc (s qc) (hi : QcInput i s qc) (hw : (s.height < qc.height ∧ qc.height < (s.height + 5) % U64 ∧ qc.round < 10) ∨
      (qc.height = s.height ∧ (s.round ≤ qc.round ∨ (qc.voteType = .precommit ∧ qc.blockHash ≠ [])))) :
      Micro e i s [] { s with votes := s.votes.setQc qc }
  /-- a certificate is built from the pool and broadcast -/
  | genQc (s ty hash vs sig)
      (hi : (∃ h lr, VoteInput i ty h lr ∧ s.isLeader = true) ∨
        ∃ sv, i = .verified (.signedVote sv) ∧ sv.vote.voteType = ty ∧ sv.vote.height = s.height)
      (hc : countingVote e.sh s.authority s.votes s.height s.round ty = .ok (some hash))
      (hv : s.votes.getVotes e.sh s.height s.round ty hash = .ok vs)
      (ha : e.crypto.aggregate ((sortVotes vs).map SignedVote.signature)
        ((sortVotes vs).map SignedVote.voter) = some sig) :
      Micro e i s [.broadcast (.aggregatedVote (mkQc s vs sig hash ty))]
        { s with votes := s.votes.setQc (mkQc s vs sig hash ty) }
  /-- a stored certificate of this height is handed to the voting state machine -/
  | trigQcId (s r ty qc) (hq : s.votes.getQcById s.height r ty = .ok qc)
      (hf : s.tryGetFullTxs qc.blockHash = true) :
      Micro e i s [.trigger (stTrigger qc.voteType.toTrigger qc.blockHash none r s.height)] s
  /-- the same, found by hash when the block check ends -/
  | trigQcHash (s h ty qc) (hi : ∃ r, i = .resp r ∧ r.blockHash = h ∧ r.height = s.height)
      (hq : s.votes.getQcByHash s.height h ty = some qc) (hr : ty = .prevote → qc.round = s.round) :
      Micro e i s [.trigger (stTrigger ty.toTrigger qc.blockHash none qc.round qc.height)] s
  /-- the block check ended -/
  | checked (s r) (hi : i = .resp r) (hh : r.height = s.height) :
      Micro e i s [] { s with isFullTransaction := s.isFullTransaction.insert r.blockHash r.isPass }
  /-- a vote from the network is stored -/
  | recvVote (s sv) (hi : i = .verified (.signedVote sv))
      (hf : s.filterMessage sv.vote.height sv.vote.round = false)
      (ha : s.authority.contains sv.voter = true)
      (hq : ∀ qc, s.votes.getQcById sv.vote.height sv.vote.round sv.vote.voteType ≠ .ok qc) :
      Micro e i s [] { s with votes := s.votes.insertVote sv.vote.blockHash sv sv.voter }
  /-- a choke of this round is stored -/
  | recvChoke (s sc) (hi : i = .verified (.signedChoke sc)) (hh : sc.choke.height = s.height)
      (hr : sc.choke.round = s.round) :
      Micro e i s [] { s with chokes := s.chokes.insert sc.choke.round sc }
  /-- enough chokes: aggregate and go on -/
  | chokeQuorum (s round scs sig)
      (hi : (∃ sc, i = .verified (.signedChoke sc)) ∨ (∃ h r lr, i = .event (.brake h r lr)) ∨ i = .start)
      (hm : s.chokes.maxRoundAboveThreshold s.authority.len = some round)
      (hr : s.round ≤ round) (hc : s.chokes.getChokes e.sh round = some scs)
      (ha : e.crypto.aggregate (scs.map SignedChoke.signature) (scs.map SignedChoke.address) = some sig) :
      Micro e i s [.trigger (stTrigger .continueRound [] none (inc64 round) s.height)]
        { s with chokes := s.chokes.setQc round (mkChokeQc s round sig scs) }
  /-- a choke certificate inside a choke -/
  | recvChokeQc (s ac) (hi : ∃ sc, i = .verified (.signedChoke sc) ∧ sc.choke.height = s.height ∧
        s.round < sc.choke.round ∧ sc.choke.from = .chokeQC ac)
      (hl : s.authority.len * 2 < ac.voters.length * 3) :
      Micro e i s [.trigger (stTrigger .continueRound [] none (inc64 ac.round) s.height)]
        { s with chokes := s.chokes.setQc ac.round ac }
  /-- a proposal of a later round or height is stored -/
  | storeProposal (s sp ps) (hi : ProposalInput i s sp) (hc : s.authority.contains sp.proposal.proposer = true)
      (hp : s.authority.getProposer e.mode sp.proposal.height sp.proposal.round = .ok sp.proposal.proposer)
      (hf : s.filterMessage sp.proposal.height sp.proposal.round = false)
      (hl : (sp.proposal.height = s.height ∧ sp.proposal.round ≠ s.round) ∨ sp.proposal.height > s.height)
      (hs : s.proposals.insert sp.proposal.height sp.proposal.round sp = .ok ps) :
      Micro e i s [] { s with proposals := ps }
  /-- the block of a current proposal is stored -/
  | storeBlock (s sp) (hi : ProposalInput i s sp) (hc : s.authority.contains sp.proposal.proposer = true)
      (hp : s.authority.getProposer e.mode sp.proposal.height sp.proposal.round = .ok sp.proposal.proposer)
      (hh : sp.proposal.height = s.height) (hr : sp.proposal.round = s.round) :
      Micro e i s []
        { s with hashWithBlock := s.hashWithBlock.insert sp.proposal.blockHash sp.proposal.content }
  /-- a current proposal is stored and handed to the voting state machine, its block check starts -/
  | acceptProposal (s sp ps)
      (hi : ProposalInput i s sp)
      (hc : s.authority.contains sp.proposal.proposer = true)
      (hp : s.authority.getProposer e.mode sp.proposal.height sp.proposal.round = .ok sp.proposal.proposer)
      (hh : sp.proposal.height = s.height) (hr : sp.proposal.round = s.round)
      (hb : s.hashWithBlock.get? sp.proposal.blockHash = some sp.proposal.content)
      (hs : s.proposals.insert s.height s.round sp = .ok ps) :
      Micro e i s [.trigger (stTrigger .proposal sp.proposal.blockHash (sp.proposal.lock.map PoLC.lockRound)
          sp.proposal.round sp.proposal.height),
        .spawnCheck s.height s.round sp.proposal.blockHash sp.proposal.content]
        { s with proposals := ps }
  /-- the node enters a round -/
  | enterRound (s round lr lp f) (hi : NewRoundInput i round lr lp f) :
      Micro e i s (if round = INIT_ROUND then [] else
          [.reportViewChange s.height s.round (s.viewChangeReason s.round f)])
        { s with round := round, isLeader := false }
  /-- the justification of the round is recorded -/
  | setFrom (s u round lr lp f) (hi : NewRoundInput i round lr lp f) (hu : FromOf s f u) :
      Micro e i s [] { s with updateFrom := u }
  /-- the WAL record of entering a round, of a vote that could not be saved, of a choke -/
  | wal (s step lr lock ok) (hsv : Saved e (walRec s step lock) ok) (hl : WalLockOf s lr lock)
      (hi : (step = .propose ∧ ∃ round lp f, NewRoundInput i round lr lp f ∧
          lr.isSome = lp.isSome ∧ round = s.round) ∨
        (ok = false ∧ ((∃ ty h, VoteInput i ty h lr ∧ step = ty.toStep) ∨
          (step = .brake ∧ ((∃ h r, i = .event (.brake h r lr)) ∨ i = .start))))) :
      Micro e i s [.saveWal (walRec s step lock) ok] s
  /-- leadership of the current round -/
  | leader (s p b) (hi : ∃ r lr lp f, NewRoundInput i r lr lp f)
      (hp : s.authority.getProposer e.mode s.height s.round = .ok p) (hb : b = decide (p = s.address)) :
      Micro e i s [] { s with isLeader := b, leaderAddress := p }
  /-- `get_block` failed, or its result is used below -/
  | askBlock (s) (hi : ∃ r lp f, NewRoundInput i r none lp f) :
      Micro e i s [.getBlock s.height (e.getBlock s.height)] s
  /-- a leader gets and stores the block it is going to propose -/
  | ownBlock (s hash block) (hi : ∃ r lr lp f, NewRoundInput i r lr lp f)
      (hn : s.hashWithBlock.get? hash = none) (hb : e.getBlock s.height = some (block, hash)) :
      Micro e i s [.getBlock s.height (some (block, hash))]
        { s with hashWithBlock := s.hashWithBlock.insert hash block }
  /-- a leader proposes -/
  | propose (s sp r lr lp f) (hi : NewRoundInput i r lr lp f) (hr : r = s.round)
      (hl : s.authority.getProposer e.mode s.height s.round = .ok s.address)
      (hh : sp.proposal.height = s.height) (hr : sp.proposal.round = s.round)
      (ha : sp.proposal.proposer = s.address)
      (hlk : match lr with
        | none => sp.proposal.lock = none ∧
            e.getBlock s.height = some (sp.proposal.content, sp.proposal.blockHash)
        | some k => lp = some sp.proposal.blockHash ∧
            s.hashWithBlock.get? sp.proposal.blockHash = some sp.proposal.content ∧
            ∃ qc, s.votes.getQcById s.height k .prevote = .ok qc ∧
              sp.proposal.lock = some { lockRound := k, lockVotes := qc })
      (hs : ∃ b, encProposal sp.proposal = some b ∧ e.crypto.sign (e.crypto.hash b) = some sp.signature)
      (hk : ∃ c, s.hashWithBlock.get? sp.proposal.blockHash = some c) :
      Micro e i s [.broadcast (.signedProposal sp),
        .trigger (stTrigger .proposal sp.proposal.blockHash lr s.round s.height),
        .spawnCheck s.height s.round sp.proposal.blockHash sp.proposal.content] s
  /-- a vote is logged and cast -/
  | castVote (s ty hash lr lock sv) (hsv : Saved e (walRec s ty.toStep lock) true) (hi : VoteInput i ty hash lr) (hl : WalLockOf s lr lock)
      (hv : sv.vote = { height := s.height, round := s.round, voteType := ty, blockHash := hash })
      (ha : sv.voter = s.address)
      (hs : e.crypto.sign (e.crypto.hash (encVote sv.vote)) = some sv.signature) :
      Micro e i s
        [.saveWal (walRec s ty.toStep lock) true,
          if s.isLeader then .ownVote sv else .transmit s.leaderAddress (.signedVote sv)]
        { s with votes := if s.isLeader then s.votes.insertVote hash sv s.address else s.votes }
  /-- the own choke is stored -/
  | ownChoke (s sc) (hi : (∃ h r lr, i = .event (.brake h r lr) ∧ h = s.height ∧ r = s.round) ∨ i = .start)
      (hc : sc.choke = { height := s.height, round := s.round, «from» := s.updateFrom })
      (ha : sc.address = s.address) :
      Micro e i s [] { s with chokes := s.chokes.insert s.round sc }
  /-- the own choke is logged and broadcast -/
  | castChoke (s sc lr lock) (hsv : Saved e (walRec s .brake lock) true)
      (hi : (∃ h r, i = .event (.brake h r lr) ∧ h = s.height ∧ r = s.round) ∨ i = .start)
      (hl : WalLockOf s lr lock)
      (hc : sc.choke = { height := s.height, round := s.round, «from» := s.updateFrom })
      (ha : sc.address = s.address)
      (hs : e.crypto.sign (e.crypto.hash (encHashChoke sc.choke.toHash)) = some sc.signature) :
      Micro e i s [.saveWal (walRec s .brake lock) true, .broadcast (.signedChoke sc)] s
  /-- a commit that could not be logged -/
  | commitLost (s w) (hsv : Saved e w false) (hw : w.step = .commit) (hh : w.height = s.height) (hr : w.round = s.round) :
      Micro e i s [.saveWal w false] s
  /-- a commit is logged and passed to the application -/
  | commit (s hash content qc)
      (hsv : Saved e (walRec s .commit (some { lockRound := s.round, lockVotes := qc, content := content })) true)
      (hi : i = .event (.commit hash) ∨ i = .start)
      (hb : s.hashWithBlock.get? hash = some content)
      (hq : s.votes.getQcByHash s.height hash .precommit = some qc) (c : Commit T)
      (hc : c = mkCommit s hash content qc) :
      Micro e i s [.saveWal (walRec s .commit (some { lockRound := s.round, lockVotes := qc, content := content })) true,
        .commitCall s.height c (e.commit s.height c)]
        { s with authority := match e.commit s.height c with
            | some st => Authority.update st.authorityList
            | none => s.authority }
  /-- a status for a higher height moves the node -/
  | move (s status) (hi : i = .verified (.richStatus status) ∨ i = .start ∨ ∃ h, i = .event (.commit h))
      (hh : s.height < status.height) (hp : status.isConsensusNode s.address = false) :
      Micro e i s [] (s.moved status)
  | moveLost (s status) (hsv : Saved e (walRec (s.moved status) .propose none) false)
      (hi : i = .verified (.richStatus status) ∨ i = .start ∨ ∃ h, i = .event (.commit h))
      (hh : s.height < status.height) :
      Micro e i s [.saveWal (walRec (s.moved status) .propose none) false] (s.moved status)
  | adopt (s status) (hsv : Saved e (walRec (s.moved status) .propose none) true)
      (hi : i = .verified (.richStatus status) ∨ i = .start ∨ ∃ h, i = .event (.commit h))
      (hh : s.height < status.height) (hp : status.isConsensusNode s.address = true) :
      Micro e i s
        (.saveWal (walRec (s.moved status) .propose none) true ::
          ((s.recheck e.sh status).map fun m => .spawnVerify m (Authority.update status.authorityList)) ++
          [.trigger (stTrigger (.newHeight status.toSMR) [] none INIT_ROUND status.height)])
        (s.adopted e.sh status)
  /-- restart without a WAL record -/
  | walLost (s) (hi : i = .start) :
      Micro e i s [.trigger (walTrig { height := s.height, round := s.round, step := .propose, polc := none })] s
  /-- restart from a WAL record: position -/
  | restorePos (s) (w : WalInfo T) (b) (hi : i = .start) (hl : e.walLoad = some (some b)) (hd : decWalInfo b = .ok w) :
      Micro e i s [] { s with height := w.height, round := w.round }
  | restoreLeader (s p b) (hi : i = .start)
      (hp : s.authority.getProposer e.mode s.height s.round = .ok p) (hb : b = decide (p = s.address)) :
      Micro e i s [] { s with isLeader := b, leaderAddress := p }
  | restoreFrom (s) (w : WalInfo T) (b) (hi : i = .start) (hl : e.walLoad = some (some b)) (hd : decWalInfo b = .ok w) :
      Micro e i s [] { s with updateFrom := w.from }
  | restoreLock (s) (w : WalInfo T) (b lock) (hi : i = .start) (hl : e.walLoad = some (some b)) (hd : decWalInfo b = .ok w)
      (hk : w.lock = some lock) :
      Micro e i s []
        { s with
          votes := s.votes.setQc lock.lockVotes
          hashWithBlock := s.hashWithBlock.insert lock.lockVotes.blockHash lock.content }
  | walTrigger (s) (w : WalInfo T) (b) (hi : i = .start) (hl : e.walLoad = some (some b)) (hd : decWalInfo b = .ok w)
      (hc : w.step ≠ .commit) (hh : s.height = w.height) (hr : s.round = w.round) :
      Micro e i s [.trigger (walTrig w.intoSmrBase)] s
  /-- arrival of a message -/
  | forward (s m) (hi : i = .raw m) (hm : m.isRichStatus = true ∨ ∃ h, m.getHeight? = some h ∧ s.height < h) :
      Micro e i s [.toVerified m] s
  | verify (s m) (hi : i = .raw m) (hm : m.getHeight? = some s.height) (hr : m.isRichStatus = false) :
      Micro e i s [.spawnVerify m s.authority] s
  /-- stop -/
  | stop (s) (hi : i = .verified .stop) :
      Micro e i s [.trigger (stTrigger .stop [] none s.round s.height)] { s with stopped := true }

end Overlord
