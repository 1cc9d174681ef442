import Verif.Model.Authority

/-!
# Collectors of proposals, votes and chokes

Models `/repo/src/state/collection.rs` completely and `counting_vote` of `/repo/src/state/process.rs`
as a function of the vote pool and the authority list. Contexts stored beside proposals and votes are
dropped, as is the logging of conflicting votes (collection.rs:447-454) and `print_round_choke_log`.
-/

namespace Overlord

variable {T : Type}

/-! ## Proposals -/

/-- collection.rs:15 `ProposalCollector` with collection.rs:83 `ProposalRoundCollector` inside. -/
abbrev ProposalCollector (T : Type) := AMap Nat (AMap Nat (SignedProposal T))

/-- collection.rs:28-40 `ProposalCollector::insert` and collection.rs:93-107 `ProposalRoundCollector::insert`.
The height entry is created even if the insertion fails; it can only fail if it existed. -/
def ProposalCollector.insert [DecidableEq T] (c : ProposalCollector T) (height round : Nat)
    (sp : SignedProposal T) : Except Err (ProposalCollector T) :=
  let rc : AMap Nat (SignedProposal T) := (AMap.get? c height).getD []
  match AMap.get? rc round with
  | some old => if old = sp then .ok c else .error (.multiProposal height round)
  | none => .ok (AMap.insert c height (AMap.insert rc round sp))

/-- collection.rs:44-61 `ProposalCollector::get` -/
def ProposalCollector.get (c : ProposalCollector T) (height round : Nat) :
    Except Err (SignedProposal T) :=
  match (AMap.get? c height).bind (fun rc => AMap.get? rc round) with
  | some sp => .ok sp
  | none => .error .storageErr

/-- collection.rs:64-72 `ProposalCollector::get_height_proposals` -/
def ProposalCollector.getHeightProposals (sh : Shuffle) (c : ProposalCollector T) (height : Nat) :
    Option (List (SignedProposal T)) × ProposalCollector T :=
  match AMap.get? c height with
  | some rc => (some (sh.run (AMap.values rc)), AMap.erase c height)
  | none => (none, c)

/-- collection.rs:75-77 `ProposalCollector::flush` -/
def ProposalCollector.flush (c : ProposalCollector T) (till : Nat) : ProposalCollector T :=
  AMap.splitOff c till

/-! ## Votes -/

/-- collection.rs:431-434 `Votes` -/
structure Votes where
  byHash : AMap Hash (List Address)
  byAddress : AMap Address SignedVote
deriving DecidableEq, Repr

/-- collection.rs:437-442 `Votes::new` -/
def Votes.new : Votes := ⟨[], []⟩

/-- collection.rs:444-462 `Votes::insert` -/
def Votes.insert (vs : Votes) (hash : Hash) (addr : Address) (vote : SignedVote) : Votes :=
  if vs.byAddress.contains addr then vs
  else
    { byHash := vs.byHash.insert hash (setInsert ((vs.byHash.get? hash).getD []) addr),
      byAddress := vs.byAddress.insert addr vote }

/-- collection.rs:468-475 `Votes::get_votes`: `None` if the hash is unknown or an address has no vote. -/
def Votes.getVotes (sh : Shuffle) (vs : Votes) (hash : Hash) : Option (List SignedVote) :=
  (vs.byHash.get? hash).bind (fun addrs => (sh.run addrs).mapM (fun a => vs.byAddress.get? a))

/-- collection.rs:477-479 `Votes::get_all_votes` -/
def Votes.getAllVotes (sh : Shuffle) (vs : Votes) : List SignedVote := sh.run (AMap.values vs.byAddress)

/-- collection.rs:481-483 `Votes::vote_count` -/
def Votes.voteCount (vs : Votes) : Nat := vs.byAddress.length

/-- collection.rs:387-390 `QuorumCertificate` -/
structure QuorumCertificate where
  prevote : Option AggregatedVote
  precommit : Option AggregatedVote
deriving DecidableEq, Repr

/-- collection.rs:393-398 `QuorumCertificate::new` -/
def QuorumCertificate.new : QuorumCertificate := ⟨none, none⟩

/-- collection.rs:400-406 `QuorumCertificate::set_quorum_certificate` -/
def QuorumCertificate.set (q : QuorumCertificate) (qc : AggregatedVote) : QuorumCertificate :=
  match qc.voteType with
  | .prevote => { q with prevote := some qc }
  | .precommit => { q with precommit := some qc }

/-- collection.rs:408-413 `QuorumCertificate::get_quorum_certificate` -/
def QuorumCertificate.get (q : QuorumCertificate) : VoteType → Option AggregatedVote
  | .prevote => q.prevote
  | .precommit => q.precommit

/-- collection.rs:415-426 `QuorumCertificate::get_all_qcs` -/
def QuorumCertificate.getAll (q : QuorumCertificate) : List AggregatedVote :=
  q.prevote.toList ++ q.precommit.toList

/-- collection.rs:328-332 `RoundCollector` -/
structure RoundCollector where
  qc : QuorumCertificate
  prevote : Votes
  precommit : Votes
deriving DecidableEq, Repr

/-- collection.rs:335-341 `RoundCollector::new` -/
def RoundCollector.new : RoundCollector := ⟨.new, .new, .new⟩

/-- collection.rs:343-349 `RoundCollector::insert_vote` -/
def RoundCollector.insertVote (rc : RoundCollector) (hash : Hash) (vote : SignedVote)
    (addr : Address) : RoundCollector :=
  match vote.vote.voteType with
  | .prevote => { rc with prevote := rc.prevote.insert hash addr vote }
  | .precommit => { rc with precommit := rc.precommit.insert hash addr vote }

/-- The pool of one vote type (the `match vote_type` of collection.rs:355-360 `RoundCollector::get_vote_map`,
collection.rs:362-371 `RoundCollector::get_votes`, collection.rs:377-382 `RoundCollector::vote_count`). -/
def RoundCollector.votes (rc : RoundCollector) : VoteType → Votes
  | .prevote => rc.prevote
  | .precommit => rc.precommit

/-- collection.rs:248-251 `VoteRoundCollector` -/
structure VoteRoundCollector where
  general : AMap Nat RoundCollector
  qcByHash : AMap Hash QuorumCertificate
deriving DecidableEq, Repr

/-- collection.rs:254-259 `VoteRoundCollector::new` -/
def VoteRoundCollector.new : VoteRoundCollector := ⟨[], []⟩

/-- collection.rs:261-266 `VoteRoundCollector::insert_vote` -/
def VoteRoundCollector.insertVote (c : VoteRoundCollector) (hash : Hash) (vote : SignedVote)
    (addr : Address) : VoteRoundCollector :=
  let rc := (c.general.get? vote.vote.round).getD .new
  { c with general := c.general.insert vote.vote.round (rc.insertVote hash vote addr) }

/-- collection.rs:268-278 `VoteRoundCollector::set_qc` -/
def VoteRoundCollector.setQc (c : VoteRoundCollector) (qc : AggregatedVote) : VoteRoundCollector :=
  let q := (c.qcByHash.get? qc.blockHash).getD .new
  let rc := (c.general.get? qc.round).getD .new
  { general := c.general.insert qc.round { rc with qc := rc.qc.set qc },
    qcByHash := c.qcByHash.insert qc.blockHash (q.set qc) }

/-- collection.rs:119 `VoteCollector` -/
abbrev VoteCollector := AMap Nat VoteRoundCollector

/-- collection.rs:128-133 `VoteCollector::insert_vote` -/
def VoteCollector.insertVote (c : VoteCollector) (hash : Hash) (vote : SignedVote) (addr : Address) :
    VoteCollector :=
  AMap.insert c vote.vote.height
    (((AMap.get? c vote.vote.height).getD .new).insertVote hash vote addr)

/-- collection.rs:136-141 `VoteCollector::set_qc` -/
def VoteCollector.setQc (c : VoteCollector) (qc : AggregatedVote) : VoteCollector :=
  AMap.insert c qc.height (((AMap.get? c qc.height).getD .new).setQc qc)

/-- The vote pool of a height, round and type, if there is one. -/
def VoteCollector.pool (c : VoteCollector) (height round : Nat) (ty : VoteType) : Option Votes :=
  (AMap.get? c height).bind (fun v => (v.general.get? round).map (fun rc => rc.votes ty))

/-- collection.rs:145-160 `VoteCollector::get_vote_map` and collection.rs:280-292 `VoteRoundCollector::get_vote_map`:
an empty map is an error. -/
def VoteCollector.getVoteMap (c : VoteCollector) (height round : Nat) (ty : VoteType) :
    Except Err (AMap Hash (List Address)) :=
  match c.pool height round ty with
  | some vs => if vs.byHash = [] then .error .storageErr else .ok vs.byHash
  | none => .error .storageErr

/-- collection.rs:163-179 `VoteCollector::get_votes` -/
def VoteCollector.getVotes (sh : Shuffle) (c : VoteCollector) (height round : Nat) (ty : VoteType)
    (hash : Hash) : Except Err (List SignedVote) :=
  match (c.pool height round ty).bind (fun vs => vs.getVotes sh hash) with
  | some l => .ok l
  | none => .error .storageErr

/-- collection.rs:182-197 `VoteCollector::get_qc_by_id` -/
def VoteCollector.getQcById (c : VoteCollector) (height round : Nat) (ty : VoteType) :
    Except Err AggregatedVote :=
  match (AMap.get? c height).bind (fun v => (v.general.get? round).bind (fun rc => rc.qc.get ty)) with
  | some qc => .ok qc
  | none => .error .storageErr

/-- collection.rs:199-208 `VoteCollector::get_qc_by_hash` -/
def VoteCollector.getQcByHash (c : VoteCollector) (height : Nat) (hash : Hash) (ty : VoteType) :
    Option AggregatedVote :=
  (AMap.get? c height).bind (fun v => (v.qcByHash.get? hash).bind (fun q => q.get ty))

/-- collection.rs:212-230 `VoteCollector::get_height_votes` -/
def VoteCollector.getHeightVotes (sh : Shuffle) (c : VoteCollector) (height : Nat) :
    Option (List SignedVote × List AggregatedVote) × VoteCollector :=
  match AMap.get? c height with
  | some v =>
    let rcs := sh.run (AMap.values v.general)
    (some (rcs.flatMap (fun rc => rc.prevote.getAllVotes sh ++ rc.precommit.getAllVotes sh),
      rcs.flatMap (fun rc => rc.qc.getAll)), AMap.erase c height)
  | none => (none, c)

/-- collection.rs:232-237 `VoteCollector::vote_count` -/
def VoteCollector.voteCount (c : VoteCollector) (height round : Nat) (ty : VoteType) : Nat :=
  match c.pool height round ty with
  | some vs => vs.voteCount
  | none => 0

/-- collection.rs:240-242 `VoteCollector::flush` -/
def VoteCollector.flush (c : VoteCollector) (till : Nat) : VoteCollector := AMap.splitOff c till

/-! ## Counting -/

/-- The inner loop of process.rs:1144-1170 `State::counting_vote`: the `u32` (wrapping) sum of the weights, error
for an address without weight. -/
def sumWeights32 (a : Authority) : Nat → List Address → Except Err Nat
  | acc, [] => .ok acc
  | acc, addr :: l =>
    match a.getVoteWeight addr with
    | .ok w => sumWeights32 a ((acc + w) % U32) l
    | .error e => .error e

/-- The outer loop of process.rs:1144-1170 `State::counting_vote`. -/
def countLoop (sh : Shuffle) (a : Authority) : List (Hash × List Address) → Except Err (Option Hash)
  | [] => .ok none
  | (hash, set) :: m =>
    match sumWeights32 a 0 (sh.run set) with
    | .error e => .error e
    | .ok acc =>
      if (acc * 3) % U64 > (a.voteWeightSum * 2) % U64 then .ok (some hash) else countLoop sh a m

/-- process.rs:1144-1170 `State::counting_vote` as a function of the pool, the authority list, height, round and
type. -/
def countingVote (sh : Shuffle) (a : Authority) (c : VoteCollector) (height round : Nat)
    (ty : VoteType) : Except Err (Option Hash) :=
  match c.getVoteMap height round ty with
  | .error e => .error e
  | .ok m => countLoop sh a (sh.run m)

/-! ## Chokes -/

/-- collection.rs:487-490 `ChokeCollector` -/
structure ChokeCollector where
  chokes : AMap Nat (AMap Address SignedChoke)
  qcs : AMap Nat AggregatedChoke
deriving DecidableEq, Repr

/-- collection.rs:493-498 `ChokeCollector::new`; also the state after collection.rs:544-547 `ChokeCollector::clear`. -/
def ChokeCollector.new : ChokeCollector := ⟨[], []⟩

/-- collection.rs:500-505 `ChokeCollector::insert` -/
def ChokeCollector.insert (c : ChokeCollector) (round : Nat) (sc : SignedChoke) : ChokeCollector :=
  { c with chokes := c.chokes.insert round (((c.chokes.get? round).getD []).insert sc.address sc) }

/-- collection.rs:507-509 `ChokeCollector::set_qc` -/
def ChokeCollector.setQc (c : ChokeCollector) (round : Nat) (qc : AggregatedChoke) : ChokeCollector :=
  { c with qcs := c.qcs.insert round qc }

/-- collection.rs:511-515 `ChokeCollector::get_chokes` -/
def ChokeCollector.getChokes (sh : Shuffle) (c : ChokeCollector) (round : Nat) :
    Option (List SignedChoke) :=
  (c.chokes.get? round).map (fun m => sh.run (AMap.values m))

/-- collection.rs:517-519 `ChokeCollector::get_qc` -/
def ChokeCollector.getQc (c : ChokeCollector) (round : Nat) : Option AggregatedChoke := c.qcs.get? round

/-- collection.rs:521-528 `ChokeCollector::max_round_above_threshold`: scan the `BTreeMap` from the highest
round down, the first round whose chokes exceed two thirds of the number of nodes. -/
def ChokeCollector.maxRoundAboveThreshold (c : ChokeCollector) (nodesNum : Nat) : Option Nat :=
  ((c.chokes.insertionSort (fun p q => p.1 ≥ q.1)).find?
    (fun p => decide (p.2.length * 3 > nodesNum * 2))).map Prod.fst

end Overlord
