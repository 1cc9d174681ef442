# What is modelled

Generated by `tools/gen_coverage.py`: every function of `/repo/src` outside tests, its lines, and the definitions of `lean/Verif/Model` whose comment cites
lines in it (deepest citations first, at most six). Functions that no definition models are listed with the reason.


## `codec.rs`

| function | lines | model |
|---|---|---|
| `SignedProposal as Encodable::rlp_append` | 17-21 | `Codec.encSignedProposal` |
| `SignedProposal as Decodable::decode` | 25-38 | `Codec.decSignedProposal` |
| `Proposal as Encodable::rlp_append` | 43-52 | `Codec.encProposal` |
| `Proposal as Decodable::decode` | 56-80 | `Codec.decContent`, `Codec.decProposal` |
| `PoLC as Encodable::rlp_append` | 85-89 | `Codec.encPoLC` |
| `PoLC as Decodable::decode` | 93-105 | `Codec.decPoLC` |
| `AggregatedSignature as Encodable::rlp_append` | 110-114 | `Codec.encAggSig` |
| `AggregatedSignature as Decodable::decode` | 118-132 | `Codec.decAggSig` |
| `AggregatedVote as Encodable::rlp_append` | 137-146 | `Codec.encAggVote` |
| `AggregatedVote as Decodable::decode` | 150-174 | `Codec.decAggVote` |
| `SignedVote as Encodable::rlp_append` | 179-184 | `Codec.encSignedVote` |
| `SignedVote as Decodable::decode` | 188-204 | `Codec.decSignedVote` |
| `Vote as Encodable::rlp_append` | 209-216 | `Codec.encVote` |
| `Vote as Decodable::decode` | 220-239 | `Codec.decVote` |
| `Commit as Encodable::rlp_append` | 244-250 | `Codec.encCommit` |
| `Commit as Decodable::decode` | 254-270 | `Codec.decCommit` |
| `Proof as Encodable::rlp_append` | 275-281 | `Codec.encProof` |
| `Proof as Decodable::decode` | 285-302 | `Codec.decProof` |
| `DurationConfig as Encodable::rlp_append` | 306-312 | `Codec.encDuration` |
| `DurationConfig as Decodable::decode` | 316-332 | `Codec.decDuration` |
| `Status as Encodable::rlp_append` | 337-354 | `Codec.encStatus` |
| `Status as Decodable::decode` | 358-381 | `Codec.decStatus` |
| `Node as Encodable::rlp_append` | 386-391 | `Codec.encNode` |
| `Node as Decodable::decode` | 395-410 | `Codec.decNode` |
| `UpdateFrom as Encodable::rlp_append` | 414-427 | `Codec.encUpdateFrom` |
| `UpdateFrom as Decodable::decode` | 431-454 | `Codec.decUpdateFrom` |
| `WalLock as Encodable::rlp_append` | 458-464 | `Codec.encWalLock` |
| `WalLock as Decodable::decode` | 468-484 | `Codec.decWalLock` |
| `WalInfo as Encodable::rlp_append` | 488-495 | `Codec.encWalInfo` |
| `WalInfo as Decodable::decode` | 499-518 | `Codec.decWalInfo` |
| `Choke as Encodable::rlp_append` | 522-527 | `Codec.encChoke` |
| `Choke as Decodable::decode` | 531-545 | `Codec.decChoke` |
| `SignedChoke as Encodable::rlp_append` | 549-554 | `Codec.encSignedChoke` |
| `SignedChoke as Decodable::decode` | 558-574 | `Codec.decSignedChoke` |
| `AggregatedChoke as Encodable::rlp_append` | 578-589 | `Codec.encAggChoke` |
| `AggregatedChoke as Decodable::decode` | 593-611 | `Codec.decAggChoke` |
| `HashChoke as Encodable::rlp_append` | 615-617 | `Codec.encHashChoke` |

## `lib.rs`

| function | lines | model |
|---|---|---|
| `trait Consensus::get_block` | 59-63 | `State.Env` |
| `trait Consensus::check_block` | 67-73 | `State.Env` |
| `trait Consensus::commit` | 76-81 | `State.Env` |
| `trait Consensus::get_authority_list` | 84-88 | `State.Env` |
| `trait Consensus::broadcast_to_other` | 91-95 | `State.Env` |
| `trait Consensus::transmit_to_relayer` | 98-103 | `State.Env` |
| `trait Consensus::report_error` | 106-106 | `State.Env` |
| `trait Consensus::report_view_change` | 109-109 | `State.Env` |
| `trait Codec::encode` | 115-115 | `Codec.ContentCodec` |
| `trait Codec::decode` | 118-118 | `Codec.ContentCodec` |
| `trait Wal::save` | 125-125 | `State.Env` |
| `trait Wal::load` | 128-128 | `State.Env` |
| `trait Crypto::hash` | 134-134 | `State.Crypto`, `State.Env` |
| `trait Crypto::sign` | 137-137 | `State.Crypto`, `State.Env` |
| `trait Crypto::aggregate_signatures` | 140-144 | `State.Crypto`, `State.Env` |
| `trait Crypto::verify_signature` | 147-152 | `State.Crypto`, `State.Env` |
| `trait Crypto::verify_aggregated_signature` | 155-160 | `State.Crypto`, `State.Env` |
| `DurationConfig::new` | 178-190 | *not modelled*: a constructor; the model writes the record |
| `DurationConfig::get_propose_config` | 192-194 | `Timer.TimerConfig.update` |
| `DurationConfig::get_prevote_config` | 196-198 | inlined where it is called |
| `DurationConfig::get_precommit_config` | 200-202 | inlined where it is called |
| `DurationConfig::get_brake_config` | 204-206 | inlined where it is called |

## `overlord.rs`

| function | lines | model |
|---|---|---|
| `Overlord::new` | 34-44 | `Api.Api.new`, `Net.NetSys.new`, `Node.NodeSys.new` |
| `Overlord::get_handler` | 47-52 | `Api.Api.act` |
| `Overlord::run` | 55-110 | `Api.Api.act`, `Api.Api.settle`, `Api.NAct.isInner`, `Api.Piles.takeAll`, `Net.NetSys.act`, `Net.NetSys.run` |
| `OverlordHandler::new` | 118-120 | `Api.Api.calls` |
| `OverlordHandler::send_msg` | 123-146 | `Api.Api.act`, `Api.Api.calls` |

## `serde_hex.rs`

| function | lines | model |
|---|---|---|
| `serialize` | 8-13 | `Hex.serHex` |
| `deserialize` | 18-23 | `Hex.deHex` |
| `StringVisit as de::Visitor::expecting` | 28-30 | *not modelled*: glue of serde around the hex functions; error texts |
| `StringVisit as de::Visitor::visit_str` | 33-39 | *not modelled*: glue of serde around the hex functions; error texts |

## `serde_multi_hex.rs`

| function | lines | model |
|---|---|---|
| `serialize` | 18-34 | `Hex.serMultiHex` |
| `deserialize` | 36-94 | `Hex.deInner`, `Hex.deMultiHex` |
| `VecTVisitor as de::Visitor::expecting` | 51-53 | `Hex.deMultiHex` |
| `VecTVisitor as de::Visitor::visit_seq` | 55-64 | `Hex.deMultiHex` |
| `VecTVisitor as de::Visitor::visit_map` | 66-85 | `Hex.deMultiHex` |

## `smr/mod.rs`

| function | lines | model |
|---|---|---|
| `SMR::new` | 27-38 | *not modelled*: channel set-up; the channels are lists in `TimerSys` and `NodeSys` |
| `SMR::take_smr` | 41-44 | *not modelled*: hands over the sender |
| `SMR::run` | 47-58 | `Node.NodeSys.drain`, `Orphan.Orphans.act`, `Smr.Smr.run` |
| `SMRHandler::new` | 69-71 | *not modelled*: wraps a sender |
| `SMRHandler::trigger` | 74-79 | *not modelled*: appends to the list of pending triggers; fails only if the task is gone (`Model/Orphan`) |
| `SMRHandler::new_height_status` | 82-96 | appends a new-height trigger; inlined where it is called |
| `Event as Stream::poll_next` | 108-110 | *not modelled*: wraps a receiver; the channel is a list in `TimerSys` and `NodeSys` |
| `Event as FusedStream::is_terminated` | 114-116 | *not modelled*: wraps a receiver; the channel is a list in `TimerSys` and `NodeSys` |
| `Event::new` | 120-122 | *not modelled*: wraps a receiver; the channel is a list in `TimerSys` and `NodeSys` |

## `smr/smr_types.rs`

| function | lines | model |
|---|---|---|
| `Step as Default::default` | 61-63 | `Smr.Smr.init` |
| `u8 as From::from` | 67-75 | `Types.Step.toNat` |
| `Step as From::from` | 79-88 | `Codec.Step.ofU8` |
| `FromWhere::get_round` | 103-109 | `Types.FromWhere.getRound` |
| `FromWhere::to_reason` | 111-123 | `Types.FromWhere.toReason` |
| `u8 as From::from` | 252-259 | *not modelled*: used by nobody (trigger types are never encoded) |
| `TriggerType as From::from` | 264-272 | *not modelled*: used by nobody (trigger types are never encoded) |

## `smr/state_machine.rs`

| function | lines | model |
|---|---|---|
| `StateMachine as Stream::poll_next` | 34-82 | `Smr.Smr.onTrigger`, `Orphan.Orphans.act` |
| `StateMachine::new` | 87-102 | `Smr.Smr.init` |
| `StateMachine::handle_brake_timeout` | 104-119 | `Smr.Smr.handleBrakeTimeout`, `Smr.Smr.lockRound` |
| `StateMachine::handle_continue_round` | 121-144 | `Smr.Smr.handleContinueRound`, `Smr.Smr.lockProposal` |
| `StateMachine::handle_wal` | 146-155 | `Smr.Smr.handleWal` |
| `StateMachine::handle_new_height` | 159-186 | `Smr.Smr.handleNewHeight`, `Types.U64MAX` |
| `StateMachine::handle_proposal` | 192-267 | `Smr.Smr.acceptProposal`, `Smr.Smr.handleProposal`, `Smr.Smr.lockRound` |
| `StateMachine::handle_prevote` | 273-360 | `Smr.Smr.handlePrevote`, `Smr.Smr.lockProposal`, `Smr.Smr.lockRound` |
| `StateMachine::handle_precommit` | 366-436 | `Smr.Smr.handlePrecommit`, `Smr.Smr.lockProposal` |
| `StateMachine::throw_event` | 438-447 | `Node.Out.toState`, `Smr.Out`, `Timer.Out.event`, `Orphan.SmrOut.toTimer` |
| `StateMachine::throw_timer_event` | 449-454 | `Smr.Out`, `Orphan.SmrOut.toTimer` |
| `StateMachine::goto_new_height` | 457-464 | `Smr.Smr.gotoNewHeight` |
| `StateMachine::goto_next_round` | 467-471 | `Smr.Smr.gotoNextRound` |
| `StateMachine::set_timer_after_wal` | 473-510 | `Smr.Smr.lockProposal`, `Smr.Smr.timerEventAfterWal`, `Types.U64MAX` |
| `StateMachine::goto_step` | 514-517 | inlined where it is called |
| `StateMachine::update_polc` | 522-531 | `Smr.Smr.updatePolc` |
| `StateMachine::remove_polc` | 534-536 | inlined where it is called |
| `StateMachine::set_proposal` | 540-542 | inlined where it is called |
| `StateMachine::check` | 550-578 | *not modelled*: all its code is commented out, it returns `Ok(())`; what the comment promises is C63 |

## `state/collection.rs`

| function | lines | model |
|---|---|---|
| `ProposalCollector::new` | 22-24 | *not modelled*: the empty map |
| `ProposalCollector::insert` | 28-40 | `Collection.ProposalCollector.insert` |
| `ProposalCollector::get` | 44-61 | `Collection.ProposalCollector.get` |
| `ProposalCollector::get_height_proposals` | 64-72 | `Collection.ProposalCollector.getHeightProposals` |
| `ProposalCollector::flush` | 75-77 | `Collection.ProposalCollector.flush` |
| `ProposalRoundCollector::new` | 89-91 | *not modelled*: the empty map |
| `ProposalRoundCollector::insert` | 93-107 | `Collection.ProposalCollector.insert` |
| `ProposalRoundCollector::get` | 109-113 | one line of delegation; inlined in the method of the outer collector |
| `VoteCollector::new` | 123-125 | *not modelled*: the empty map |
| `VoteCollector::insert_vote` | 128-133 | `Collection.VoteCollector.insertVote` |
| `VoteCollector::set_qc` | 136-141 | `Collection.VoteCollector.setQc` |
| `VoteCollector::get_vote_map` | 145-160 | `Collection.VoteCollector.getVoteMap` |
| `VoteCollector::get_votes` | 163-179 | `Collection.VoteCollector.getVotes` |
| `VoteCollector::get_qc_by_id` | 182-197 | `Collection.VoteCollector.getQcById` |
| `VoteCollector::get_qc_by_hash` | 199-208 | `Collection.VoteCollector.getQcByHash` |
| `VoteCollector::get_height_votes` | 212-230 | `Collection.VoteCollector.getHeightVotes` |
| `VoteCollector::vote_count` | 232-237 | `Collection.VoteCollector.voteCount` |
| `VoteCollector::flush` | 240-242 | `Collection.VoteCollector.flush` |
| `VoteRoundCollector::new` | 254-259 | `Collection.VoteRoundCollector.new` |
| `VoteRoundCollector::insert_vote` | 261-266 | `Collection.VoteRoundCollector.insertVote` |
| `VoteRoundCollector::set_qc` | 268-278 | `Collection.VoteRoundCollector.setQc` |
| `VoteRoundCollector::get_vote_map` | 280-292 | `Collection.VoteCollector.getVoteMap` |
| `VoteRoundCollector::get_votes` | 294-303 | one line of delegation; inlined in the method of the outer collector |
| `VoteRoundCollector::get_qc_by_id` | 305-309 | one line of delegation; inlined in the method of the outer collector |
| `VoteRoundCollector::get_qc_by_hash` | 311-316 | one line of delegation; inlined in the method of the outer collector |
| `VoteRoundCollector::vote_count` | 318-323 | one line of delegation; inlined in the method of the outer collector |
| `RoundCollector::new` | 335-341 | `Collection.RoundCollector.new` |
| `RoundCollector::insert_vote` | 343-349 | `Collection.RoundCollector.insertVote` |
| `RoundCollector::set_qc` | 351-353 | one line of delegation; inlined in the method of the outer collector |
| `RoundCollector::get_vote_map` | 355-360 | `Collection.RoundCollector.votes` |
| `RoundCollector::get_votes` | 362-371 | `Collection.RoundCollector.votes` |
| `RoundCollector::get_qc` | 373-375 | one line of delegation; inlined in the method of the outer collector |
| `RoundCollector::vote_count` | 377-382 | `Collection.RoundCollector.votes` |
| `QuorumCertificate::new` | 393-398 | `Collection.QuorumCertificate.new` |
| `QuorumCertificate::set_quorum_certificate` | 400-406 | `Collection.QuorumCertificate.set` |
| `QuorumCertificate::get_quorum_certificate` | 408-413 | `Collection.QuorumCertificate.get` |
| `QuorumCertificate::get_all_qcs` | 415-426 | `Collection.QuorumCertificate.getAll` |
| `Votes::new` | 437-442 | `Collection.Votes.new` |
| `Votes::insert` | 444-462 | `Collection.Votes.insert` |
| `Votes::get_vote_map` | 464-466 | one line of delegation; inlined in the method of the outer collector |
| `Votes::get_votes` | 468-475 | `Collection.Votes.getVotes` |
| `Votes::get_all_votes` | 477-479 | `Collection.Votes.getAllVotes` |
| `Votes::vote_count` | 481-483 | `Collection.Votes.voteCount` |
| `ChokeCollector::new` | 493-498 | `Collection.ChokeCollector.new` |
| `ChokeCollector::insert` | 500-505 | `Collection.ChokeCollector.insert` |
| `ChokeCollector::set_qc` | 507-509 | `Collection.ChokeCollector.setQc` |
| `ChokeCollector::get_chokes` | 511-515 | `Collection.ChokeCollector.getChokes` |
| `ChokeCollector::get_qc` | 517-519 | `Collection.ChokeCollector.getQc` |
| `ChokeCollector::max_round_above_threshold` | 521-528 | `Collection.ChokeCollector.maxRoundAboveThreshold` |
| `ChokeCollector::print_round_choke_log` | 530-542 | *not modelled*: log lines only |
| `ChokeCollector::clear` | 544-547 | `Collection.ChokeCollector.new` |

## `state/parallel.rs`

| function | lines | model |
|---|---|---|
| `parallel_verify` | 13-95 | `Node.NodeSys.absorb`, `Orphan.OAct`, `State.verifyTask` |
| `get_voters` | 97-103 | `State.qcVoters` |
| `verify_qc` | 105-130 | `State.verifyQc` |

## `state/process.rs`

| function | lines | model |
|---|---|---|
| `State::new` | 73-115 | `Clock.TWorld.new`, `State.State.new` |
| `State::run` | 118-190 | `Api.Api.act`, `Clock.TM`, `Clock.TWorld`, `Clock.logged`, `Clock.plain`, `Clock.tRunArm` |
| `State::handle_msg` | 194-257 | `Clock.tHandleMsg`, `State.handleMsg` |
| `State::handle_event` | 260-330 | `Clock.tHandleEvent`, `State.handleEvent` |
| `State::handle_resp` | 332-379 | `State.handleResp` |
| `State::goto_new_height` | 390-446 | `Clock.adoptTail`, `Clock.instant`, `Clock.startWatch`, `Clock.tGotoNewHeight`, `State.gotoNewHeight` |
| `State::handle_new_round` | 452-567 | `Clock.proposeTail`, `Clock.tHandleNewRound`, `State.handleNewRound`, `State.proposalParts` |
| `State::handle_signed_proposal` | 582-658 | `Clock.instant`, `Clock.startWatch`, `Clock.tHandleSignedProposal`, `Clock.takeProposal`, `State.handleSignedProposal` |
| `State::handle_vote_event` | 660-705 | `State.handleVoteEvent` |
| `State::handle_brake` | 707-744 | `State.handleBrake` |
| `State::handle_commit` | 746-821 | `Clock.TWorld`, `Clock.commitHead`, `Clock.instant`, `Clock.sleepFor`, `Clock.tHandleCommit`, `Clock.watch` |
| `State::handle_signed_vote` | 842-950 | `State.handleSignedVote` |
| `State::handle_aggregated_vote` | 978-1066 | `State.handleAggregatedVote` |
| `State::vote_process` | 1074-1142 | `State.voteProcess` |
| `State::counting_vote` | 1144-1170 | `Collection.countLoop`, `Collection.countingVote`, `Collection.sumWeights32`, `State.countVotes` |
| `State::handle_signed_choke` | 1180-1220 | `State.handleSignedChoke` |
| `State::handle_aggregated_choke` | 1222-1246 | `State.handleAggregatedChoke` |
| `State::generate_qc` | 1248-1292 | `Authority.Authority.bitmapOf`, `Authority.sortVotes`, `State.generateQc` |
| `State::re_check_proposals` | 1294-1312 | `State.reCheck` |
| `State::re_check_votes` | 1314-1332 | `State.reCheck` |
| `State::re_check_qcs` | 1334-1349 | `State.reCheck` |
| `State::is_proposer` | 1353-1376 | `State.isProposer` |
| `State::next_proposer` | 1378-1381 | `State.nextProposer` |
| `State::sign_proposal` | 1383-1394 | `State.signProposal` |
| `State::sign_vote` | 1396-1408 | `State.signVote` |
| `State::aggregate_signatures` | 1410-1432 | `State.aggregateSignatures` |
| `State::verify_proposer` | 1434-1441 | `State.verifyProposer` |
| `State::verify_address` | 1444-1449 | `State.verifyAddress` |
| `State::transmit` | 1451-1468 | `State.transmit` |
| `State::broadcast` | 1470-1484 | `State.broadcast` |
| `State::report_error` | 1486-1488 | *not modelled*: called by nobody (finding 16) |
| `State::report_view_change` | 1490-1493 | `State.reportViewChange` |
| `State::view_change_reason` | 1495-1544 | `State.State.viewChangeReason` |
| `State::check_choke_above_threshold` | 1546-1591 | `State.checkChokeAboveThreshold` |
| `State::check_block` | 1597-1611 | `Node.NodeSys.absorb`, `State.checkBlock` |
| `State::save_wal` | 1613-1634 | `State.saveWal` |
| `State::save_wal_with_lock_round` | 1636-1665 | `State.saveWalWithLockRound` |
| `State::wal_lost` | 1667-1684 | `State.walLost` |
| `State::start_with_wal` | 1686-1740 | `Clock.tStartWithWal`, `State.startWithWal`, `Timer.TimerSys.boot` |
| `State::load_wal` | 1742-1756 | `State.loadWal` |
| `State::try_get_full_txs` | 1759-1767 | `State.State.tryGetFullTxs` |
| `State::set_update_from` | 1769-1800 | `State.setUpdateFrom`, `Types.U64MAX` |
| `State::filter_signed_proposal` | 1806-1831 | `State.filterSignedProposal` |
| `State::filter_message` | 1833-1856 | `State.State.filterMessage` |
| `check_current_block` | 1860-1882 | `Node.NodeSys.act`, `Orphan.OAct`, `State.checkBlock` |
| `mock_init_qc` | 1884-1898 | `State.mockInitQc` |

## `timer.rs`

| function | lines | model |
|---|---|---|
| `Timer as Stream::poll_next` | 36-80 | `Orphan.Orphans.act` |
| `Timer::new` | 84-105 | `Timer.Timer.new`, `Orphan.Orphans.act` |
| `Timer::run` | 107-113 | `Orphan.Orphans.act` |
| `Timer::set_timer` | 115-158 | `Timer.Timer.coef`, `Timer.Timer.onNewRound`, `Timer.Timer.setTimer` |
| `Timer::trigger` | 161-209 | `Timer.Timer.trigger`, `Timer.timeoutTrigger` |
| `TimeoutInfo as Future::poll` | 225-244 | *not modelled*: the expiry of a timeout is the step `expire` of `TimerSys`; when it happens is left open |
| `TimeoutInfo::new` | 248-254 | *not modelled*: adds to `armed` of `TimerSys` |

## `types.rs`

| function | lines | model |
|---|---|---|
| `u8 as From::from` | 32-37 | `Codec.VoteType.toU8` |
| `TriggerType as From::from` | 41-46 | `Types.VoteType.toTrigger` |
| `Step as From::from` | 50-55 | `Types.VoteType.toStep` |
| `VoteType as TryFrom::try_from` | 61-67 | `Codec.VoteType.ofU8` |
| `OverlordMsg::is_rich_status` | 99-101 | `Types.OverlordMsg.isRichStatus` |
| `OverlordMsg::get_height` | 103-112 | `Types.OverlordMsg.getHeight?` |
| `SignedVote as PartialOrd::partial_cmp` | 216-218 | *not modelled*: same as `cmp` |
| `SignedVote as Ord::cmp` | 222-224 | `Authority.SignedVote.le` |
| `SignedVote::get_height` | 229-231 | field access or constructor; inlined where it is called |
| `SignedVote::get_round` | 234-236 | field access or constructor; inlined where it is called |
| `SignedVote::get_hash` | 239-241 | field access or constructor; inlined where it is called |
| `SignedVote::is_prevote` | 244-246 | field access or constructor; inlined where it is called |
| `AggregatedVote::get_height` | 283-285 | field access or constructor; inlined where it is called |
| `AggregatedVote::get_round` | 288-290 | field access or constructor; inlined where it is called |
| `AggregatedVote::is_prevote_qc` | 293-295 | field access or constructor; inlined where it is called |
| `AggregatedVote::to_vote` | 298-305 | `Types.AggregatedVote.toVote` |
| `SMRStatus as From::from` | 362-368 | `Types.Status.toSMR` |
| `Status::is_consensus_node` | 372-376 | `Types.Status.isConsensusNode` |
| `Node as PartialOrd::partial_cmp` | 393-395 | *not modelled*: same as `cmp` |
| `Node as Ord::cmp` | 399-401 | `Authority.Node.le` |
| `Node::new` | 406-412 | field access or constructor; inlined where it is called |
| `Node::set_propose_weight` | 416-418 | field access or constructor; inlined where it is called |
| `Node::set_vote_weight` | 421-423 | field access or constructor; inlined where it is called |
| `AggregatedChoke::len` | 456-458 | field access or constructor; inlined where it is called |
| `AggregatedChoke::to_hash` | 460-465 | `Types.AggregatedChoke.toHash` |
| `Choke::to_hash` | 491-496 | `Types.Choke.toHash` |

## `utils/auth_manage.rs`

| function | lines | model |
|---|---|---|
| `AuthorityManage::new` | 28-36 | `Authority.Authority.new` |
| `AuthorityManage::update` | 39-54 | `Authority.Authority.push`, `Authority.Authority.update`, `Authority.sortNodes` |
| `AuthorityManage::get_vote_weight` | 57-61 | `Authority.Authority.getVoteWeight` |
| `AuthorityManage::get_proposer` | 64-81 | `Authority.Authority.getProposer`, `Authority.LeaderMode` |
| `AuthorityManage::is_above_threshold` | 84-102 | `Authority.Authority.bitmapWeight`, `Authority.Authority.isAboveThreshold` |
| `AuthorityManage::get_voters` | 104-113 | `Authority.Authority.getVoters` |
| `AuthorityManage::contains` | 116-118 | `Authority.Authority.contains` |
| `AuthorityManage::get_vote_weight_sum` | 121-123 | inlined where it is called |
| `AuthorityManage::flush` | 126-132 | `Authority.Authority.new` |
| `AuthorityManage::len` | 135-137 | `Authority.Authority.len` |
| `AuthorityManage::get_address_ref` | 139-141 | inlined where it is called |
| `extract_voters` | 146-159 | `Authority.extractVoters`, `Authority.sortNodes` |
| `get_leader` | 162-178 | `Authority.LeaderMode`, `Authority.getLeader`, `Authority.sortNodes` |
| `rotation_leader_index` | 180-185 | `Authority.leaderStride`, `Authority.rotationLeaderIndex` |

## `utils/rand_proposer.rs`

| function | lines | model |
|---|---|---|
| `get_random_proposer_index` | 4-20 | `Authority.firstAccepted`, `Authority.getRandomProposerIndex`, `Authority.pickIndex` |

## `utils/timer_config.rs`

| function | lines | model |
|---|---|---|
| `TimerConfig::new` | 19-27 | `Timer.TimerConfig.new` |
| `TimerConfig::set_interval` | 29-31 | `Timer.TimerConfig.setInterval` |
| `TimerConfig::update` | 33-38 | `Timer.TimerConfig.update` |
| `TimerConfig::get_timeout` | 40-48 | `Timer.TimerConfig.getTimeout` |
| `TimerConfig::get_propose_timeout` | 50-52 | `Timer.TimerConfig.ratio` |
| `TimerConfig::get_prevote_timeout` | 54-56 | inlined where it is called |
| `TimerConfig::get_precommit_timeout` | 58-60 | inlined where it is called |
| `TimerConfig::get_brake_timeout` | 62-64 | inlined where it is called |

## `wal/wal_type.rs`

| function | lines | model |
|---|---|---|
| `WalInfo::into_smr_base` | 30-37 | `Types.WalInfo.intoSmrBase` |
| `WalLock::to_lock` | 49-54 | `Types.WalLock.toLock` |
