import Verif.Spec.Net

/-!
# Specification vocabulary for a round that goes well (C45)

A good round: a height, a round, the validator list, the leader, the block it proposes. `live a`: the node with
address `a` runs the modelled code and is not disturbed during the round. The other validators are faulty; they
may vote for anything, or be silent.
-/

namespace Overlord.Spec

/-- A round and its block. `lock` is the round of the lock the proposal carries, if its leader is locked. -/
structure GoodRound (T : Type) where
  height : Nat
  round : Nat
  list : List Node
  mode : LeaderMode
  live : Address → Bool
  leader : Address
  block : T
  hash : Hash
  lock : Option Nat

variable {T : Type}

/-- The leader is the one the list and the leader mode determine, it is live, the live nodes are validators and have
more than two thirds of the weight; the numbers do not overflow. -/
structure GoodRound.Ok (g : GoodRound T) : Prop where
  distinct : Distinct g.list
  sized : Sized g.list
  small : total g.list < 2 ^ 32
  leader : (Authority.update g.list).getProposer g.mode g.height g.round = .ok g.leader
  leads : g.live g.leader = true
  members : ∀ a, g.live a = true → a ∈ g.list.map Node.address
  quorum : Quorum g.list g.live
  hash : g.hash ≠ []
  rounds : g.round + FUTURE_ROUND_GAP < U64
  heights : g.height + FUTURE_HEIGHT_GAP < U64

/-- The lock a record refers to can be written: the certificate of its round and its block are stored. -/
def LockStored (s : State T) : Option Nat → Prop
  | none => True
  | some x => ∃ qc c, s.votes.getQcById s.height x .prevote = .ok qc ∧ s.hashWithBlock.get? qc.blockHash = some c

/-- The certificate that made the node change its round is stored. -/
def FromStored (s : State T) : FromWhere → Prop
  | .prevoteQC x => ∃ qc, s.votes.getQcById s.height x .prevote = .ok qc
  | .precommitQC x => x = U64MAX ∨ ∃ qc, s.votes.getQcById s.height x .precommit = .ok qc
  | .chokeQC x => ∃ qc, s.chokes.getQc x = some qc

/-- Unlocked, or locked on the proposed block, or locked in an earlier round than the lock the proposal carries. -/
def Suitable (g : GoodRound T) (s : Smr) : Prop :=
  s.lock = none ∨ s.blockHash = g.hash ∨ ∃ l p, s.lock = some l ∧ g.lock = some p ∧ l.round < p

/-- The voting state machine of node `a` has entered the round and nothing of this round has happened yet: no
message, vote or certificate of the round is stored, nothing is on its way inside the node except, possibly, the order
to the State to enter the round. The leader still has that order (it proposes when it takes it up). -/
structure Ready (g : GoodRound T) (a : Address) (n : NodeSys T) : Prop where
  up : n.down = false
  addr : n.st.address = a
  power : n.st.consensusPower = true
  running : n.st.stopped = false
  height : n.st.height = g.height
  authority : n.st.authority = Authority.update g.list
  smr : n.sys.smr.height = g.height ∧ n.sys.smr.round = g.round ∧ n.sys.smr.step = .propose
  suitable : Suitable g n.sys.smr
  lock : LockStored n.st n.sys.smr.lockRound
  idle : n.sys.trigQ = [] ∧ n.verifiedQ = [] ∧ n.verifying = [] ∧ n.checking = [] ∧ n.respQ = []
  noQc : ∀ ty qc, n.st.votes.getQcById g.height g.round ty ≠ .ok qc
  oldQc : ∀ qc, n.st.votes.getQcByHash g.height g.hash .prevote = some qc →
    qc.height = g.height ∧ qc.blockHash = g.hash ∧ qc.round ≠ g.round
  noCommit : n.st.votes.getQcByHash g.height g.hash .precommit = none
  noVote : ∀ ty, n.st.votes.pool g.height g.round ty = none
  noProposal : ∀ sp, n.st.proposals.get g.height g.round ≠ .ok sp
  content : ∀ c, n.st.hashWithBlock.get? g.hash = some c → c = g.block
  checked : n.st.tryGetFullTxs g.hash = true → n.st.hashWithBlock.get? g.hash = some g.block
  entry :
    (n.stQ = [] ∧ n.st.round = g.round ∧ n.st.isLeader = false ∧ n.st.leaderAddress = g.leader ∧ a ≠ g.leader) ∨
    ∃ lr lp f ni nc, n.stQ = [.newRoundInfo g.height g.round lr lp f ni nc] ∧
      n.st.round ≤ g.round ∧ g.round ≤ n.st.round + FUTURE_ROUND_GAP ∧ lr.isSome = lp.isSome ∧
      LockStored n.st lr ∧ FromStored n.st f ∧
      (a = g.leader → lr = g.lock ∧ ∀ p, lr = some p → lp = some g.hash ∧ n.st.hashWithBlock.get? g.hash = some g.block)

/-- What node `c` has done since the network was `N0`. -/
def doneSince (N0 N : NetSys T) (c : Address) : List (Effect T) :=
  (N.nodes c).log.drop (N0.nodes c).log.length

/-- Since `N0`, node `c` has sent the message to node `a`. -/
def SentTo (N0 N : NetSys T) (c a : Address) (m : OverlordMsg T) : Prop :=
  .broadcast m ∈ doneSince N0 N c ∨ .transmit a m ∈ doneSince N0 N c

/-- The round a message is about. -/
def msgRound : OverlordMsg T → Nat
  | .signedProposal sp => sp.proposal.round
  | .signedVote sv => sv.vote.round
  | .aggregatedVote qc => qc.round
  | .signedChoke sc => sc.choke.round
  | .richStatus _ => 0
  | .stop => 0

/-- A certificate that commits a block. -/
def commits : OverlordMsg T → Prop
  | .aggregatedVote qc => qc.voteType = .precommit ∧ qc.blockHash ≠ []
  | _ => False

/-- A validator that is not live. -/
def FaultyIn (g : GoodRound T) (a : Address) : Prop := a ∈ g.list.map Node.address ∧ g.live a = false

/-- The faulty validators are at most two thirds of all by number. (Chokes are counted by number, not by weight: C41.) -/
def FewByNumber (g : GoodRound T) : Prop := (g.list.filter fun n => !g.live n.address).length * 3 ≤ g.list.length * 2

/-- The chokes a node has stored for the round or for later ones are of faulty validators, one of each. -/
def FaultyChokes (g : GoodRound T) (s : State T) : Prop :=
  ∀ p ∈ s.chokes.chokes, g.round ≤ p.1 → (p.2.map Prod.fst).Nodup ∧ ∀ x ∈ p.2, FaultyIn g x.1

/-- Messages of faulty validators that do not disturb the round: votes for anything; proposals, except one in the name of the
leader of the round; chokes of the round, if the faulty validators are few enough and only they send any. (Certificates
and chokes of later rounds do disturb it: see C19, C20, C41.) -/
def Bearable (g : GoodRound T) (s : State T) : OverlordMsg T → Prop
  | .signedVote sv => g.live sv.voter = false
  | .signedProposal sp => sp.proposal.round ≠ g.round ∨ sp.proposal.proposer ≠ g.leader
  | .signedChoke sc => sc.choke.round = g.round ∧ FaultyIn g sc.address ∧ FewByNumber g ∧ FaultyChokes g s
  | _ => False

/-- What may pass the signature check of node `a` at the height of the round: messages of live nodes sent since
`N0`, outdated messages (except certificates that commit), and, once the node's State is in the round, votes, proposals and
chokes of faulty validators. -/
def Passes (g : GoodRound T) (N0 N : NetSys T) (a : Address) (m : OverlordMsg T) : Prop :=
  (∃ c, g.live c = true ∧ SentTo N0 N c a m) ∨
  (msgRound m < (N.nodes a).st.round ∧ ¬ commits m) ∨
  (N.nodes a).st.round = g.round ∧ Bearable g (N.nodes a).st m

section
variable [ContentCodec T] [DecidableEq T]

/-- Every block can be encoded. -/
def Encodes (T : Type) [ContentCodec T] : Prop := ∀ c : T, (ContentCodec.encode c).isSome = true

/-- What the application, the storage and the cryptography answer a node: records are saved, signing and aggregating
work, the leader gets its block, commits are answered by nothing or by a later status. -/
structure GoodEnv (g : GoodRound T) (e : Env T) : Prop where
  mode : e.mode = g.mode
  saves : ∀ b, e.walSave b = true
  signs : ∀ h, (e.crypto.sign h).isSome = true
  aggregates : ∀ l l', (e.crypto.aggregate l l').isSome = true
  block : g.lock = none → e.getBlock g.height = some (g.block, g.hash)
  answers : CommitsAnswered e

/-- A step of a live node in a good round: no timeout fires, the node does not crash, messages of live nodes pass the
signature check, other messages only if they do no harm, blocks pass the application's check. Any message may
arrive at any time. -/
def GoodStep (g : GoodRound T) (N0 N : NetSys T) (a : Address) : NAct T → Prop
  | .arm (.raw m) e cut => GoodEnv g e ∧ cut = none ∧ m.isRichStatus = false ∧ m ≠ .stop
  | .arm _ e cut => GoodEnv g e ∧ cut = none
  | .verifyDone c i => ∀ m au, (N.nodes a).verifying[i]? = some (m, au) → (N.nodes a).st.height = g.height →
      m.getHeight? = some g.height →
      ((∃ c, g.live c = true ∧ SentTo N0 N c a m) → verifyTask c m au = true) ∧
      (verifyTask c m au = true → Passes g N0 N a m)
  | .checkDone _ ok => ok = true
  | .smr => True
  | .set => True
  | .expire _ => True
  | .fire _ => False
  | .crash => False
  | .start _ _ _ => False

/-- As `GoodStep`, but any message with valid signatures passes the signature check. -/
def OpenStep (g : GoodRound T) (N0 N : NetSys T) (a : Address) : NAct T → Prop
  | .verifyDone c i => ∀ m au, (N.nodes a).verifying[i]? = some (m, au) → (N.nodes a).st.height = g.height →
      m.getHeight? = some g.height → (∃ c, g.live c = true ∧ SentTo N0 N c a m) → verifyTask c m au = true
  | x => GoodStep g N0 N a x

/-- In the schedule `as`, started in `N0`, the message arrived at node `a` after node `c` had sent it. -/
def Arrived (N0 : NetSys T) (as : List (Address × NAct T)) (c a : Address) (m : OverlordMsg T) : Prop :=
  ∃ as1 e as2 N1, as = as1 ++ (a, .arm (.raw m) e none) :: as2 ∧ N0.run as1 = some N1 ∧ SentTo N0 N1 c a m

/-- Nothing is left to do inside the node. -/
def Settled (n : NodeSys T) : Prop :=
  n.sys.trigQ = [] ∧ n.stQ = [] ∧ n.verifiedQ = [] ∧ n.verifying = [] ∧ n.checking = [] ∧ n.respQ = []

/-- Every message of the height that live nodes sent to live nodes since `N0` has arrived, and the nodes that are still
at the height of the round have done all they had to do. -/
def Delivered (g : GoodRound T) (N0 N : NetSys T) (as : List (Address × NAct T)) : Prop :=
  (∀ c a m, g.live c = true → g.live a = true → c ≠ a → SentTo N0 N c a m →
    m.getHeight? = some g.height → Arrived N0 as c a m) ∧
  ∀ a, g.live a = true → (N.nodes a).st.height = g.height → Settled (N.nodes a)

end

end Overlord.Spec
