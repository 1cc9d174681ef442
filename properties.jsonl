{"id": "C01", "title": "Consensus position never goes backwards", "statement": "While a node runs, the (height, round, step) position from which it votes is lexicographically non-decreasing: no message, quorum certificate, choke or timeout ever moves a node back to an earlier height, an earlier round of the same height, or an earlier step of the same round.", "quantifier": "every state of the voting state machine, every trigger other than a WAL restore, and by induction every trigger history", "why_tests_cant": "the set of trigger interleavings (stale timers, late QCs, chokes, statuses) is unbounded; a unit test drives one of them", "anchors": ["src/smr/state_machine.rs: StateMachine::handle_*", "src/smr/state_machine.rs: goto_next_round, goto_new_height"]}
{"id": "C02", "title": "At most one prevote and one precommit per height and round", "statement": "For every history of inputs (without a restart in the middle) a node decides on at most one prevote and at most one precommit for each (height, round).", "quantifier": "every finite history of triggers starting from any state machine state", "why_tests_cant": "double voting can only be excluded by an invariant over all histories; a test observes one history", "anchors": ["src/smr/state_machine.rs: handle_proposal, handle_prevote", "src/smr/smr_types.rs: SMREvent"]}
{"id": "C03", "title": "Lock discipline", "statement": "After a node has seen a prevote quorum for a block (is locked on it), every prevote it casts at that height is for that block until the lock is released, and the lock is released or replaced only by (a) a proposal that carries a proof of lock change for a strictly higher round, (b) a prevote quorum of the current or a later round, or (c) moving to a new height. Timeouts and chokes never release or change a lock.", "quantifier": "every state machine state satisfying the (proved, inductive) state invariant, every trigger, every history", "why_tests_cant": "the interesting case is a lock taken many rounds earlier followed by an arbitrary interleaving of timeouts, chokes and proposals", "anchors": ["src/smr/state_machine.rs: handle_proposal, handle_prevote, update_polc, remove_polc"]}
{"id": "C04", "title": "A precommit for a block is justified by a prevote quorum", "statement": "A node precommits a non-empty block hash only in direct response to a prevote quorum certificate for that same hash at its height, whose round is the precommit's round or the round immediately before; in the latter case the node has skipped into the round and casts no prevote in it. Timeouts only ever produce empty precommits.", "quantifier": "every trigger history", "why_tests_cant": "requires relating each emitted vote to its cause over all histories", "anchors": ["src/smr/state_machine.rs: handle_prevote"]}
{"id": "C05", "title": "A block is committed only on a precommit quorum", "statement": "The state machine orders a commit of a hash only when handed, by the state module and never by the timer, a precommit quorum certificate with that non-empty hash for the current height.", "quantifier": "every state and trigger", "why_tests_cant": "must hold for all triggers, including stale and timer ones", "anchors": ["src/smr/state_machine.rs: handle_precommit", "src/state/process.rs: handle_commit"]}
{"id": "C06", "title": "Stale inputs are inert", "statement": "A proposal, quorum certificate, choke certificate or timeout that belongs to another height, a proposal or timeout that belongs to another round, and a prevote quorum or empty precommit quorum of an earlier round leave the voting state machine unchanged and produce no vote, commit or round change.", "quantifier": "every state machine state and every such trigger", "why_tests_cant": "quantifies over all stale inputs in all states", "anchors": ["src/smr/state_machine.rs: handle_proposal, handle_prevote, handle_precommit, handle_brake_timeout, handle_continue_round", "src/timer.rs: Timer::trigger"]}
{"id": "C07", "title": "A height is committed at most once", "statement": "Between starts of a node, commit() is invoked at most once for each height as long as it succeeds with a status for a later height, and the heights passed to successive successful commit() calls strictly increase.", "quantifier": "every schedule of messages, events and timeouts of one node", "why_tests_cant": "the second commit needs a QC or choke that arrives between the first commit order and its execution", "anchors": ["src/state/process.rs: handle_commit, goto_new_height", "src/smr/state_machine.rs: handle_precommit, handle_continue_round"]}
{"id": "C08", "title": "Vote weight threshold is exactly two thirds", "statement": "A voter bitmap is above threshold if and only if three times the summed vote weight of the validators it selects exceeds twice the total vote weight of the authority list.", "quantifier": "every authority list with distinct addresses and every bitmap, of any length", "why_tests_cant": "boundary cases (exactly 2/3, short bitmap, padding bits, extra bytes) for every weight distribution", "anchors": ["src/utils/auth_manage.rs: is_above_threshold, update"]}
{"id": "C09", "title": "Quorum intersection", "statement": "Any two sets of validators each above threshold share validators of more than one third of the total weight; hence if Byzantine validators hold at most one third, two quorums share an honest validator.", "quantifier": "every authority list, every pair of quorums", "why_tests_cant": "a combinatorial statement over all weightings", "anchors": ["src/utils/auth_manage.rs: is_above_threshold"]}
{"id": "C10", "title": "Aggregated votes name exactly their voters", "statement": "The bitmap in a quorum certificate built by a relayer decodes, through extract_voters / get_voters on the same authority list in any order, to exactly the validators whose votes were aggregated, in the same order as the aggregated signatures, whatever the number of validators.", "quantifier": "every authority list, every set of collected votes", "why_tests_cant": "depends on bit packing, padding and sorting for every size", "anchors": ["src/state/process.rs: generate_qc", "src/utils/auth_manage.rs: extract_voters, get_voters", "bit-vec from_bytes/to_bytes"]}
{"id": "C11", "title": "Authority list order is irrelevant", "statement": "Nodes that are given the same validators in different orders agree on weights, thresholds, bitmap meaning and on the leader of every height and round.", "quantifier": "every permutation of every authority list with distinct addresses", "why_tests_cant": "all permutations", "anchors": ["src/utils/auth_manage.rs: update, extract_voters, get_leader", "src/types.rs: impl Ord for Node"]}
{"id": "C12", "title": "Vote counting elects at most one block, independent of map order", "statement": "For a given height, round and vote type at most one block hash can reach the threshold in a node's vote pool, so the quorum certificate a relayer builds does not depend on hash map iteration order, and the elected hash really has more than two thirds of the weight.", "quantifier": "every vote collector reachable by any sequence of insertions, every iteration order", "why_tests_cant": "hash map iteration order is random per process", "anchors": ["src/state/process.rs: counting_vote", "src/state/collection.rs: Votes, get_vote_map"]}
{"id": "C13", "title": "First vote wins and each validator is counted once", "statement": "Over any sequence of received votes, the vote pool of a (height, round, type) attributes to each validator exactly its first vote of that height, round and type; later duplicates or conflicting votes change nothing, and votes of other heights, rounds or types never contribute.", "quantifier": "every sequence of vote insertions and QC insertions", "why_tests_cant": "refinement of the nested maps to an abstract first-writer-wins map for all operation sequences", "anchors": ["src/state/collection.rs: VoteCollector, VoteRoundCollector, RoundCollector, Votes"]}
{"id": "C14", "title": "Vote weights are summed without wrap-around", "statement": "A block whose voters hold more than two thirds of the total weight is always recognised when counting votes, and one whose voters do not is never recognised, for all u32 weights.", "quantifier": "every authority list with arbitrary u32 weights", "why_tests_cant": "only fails for weight sums above 2^32", "anchors": ["src/state/process.rs: counting_vote (acc: u32)", "src/utils/auth_manage.rs: get_vote_weight_sum"]}
{"id": "C15", "title": "Public leader query agrees with the node", "statement": "get_leader(height, round, list) returns the address that a running node with that authority list accepts as proposer of (height, round).", "quantifier": "every height, round and authority list, in both leader modes", "why_tests_cant": "two independent implementations must agree on all inputs", "anchors": ["src/utils/auth_manage.rs: get_leader, AuthorityManage::get_proposer"]}
{"id": "C16", "title": "Every validator leads within one cycle of rounds", "statement": "With the default rotation, at any height every n consecutive rounds give each of the n validators the lead exactly once.", "quantifier": "every height, starting round and list size n", "why_tests_cant": "for all n", "anchors": ["src/utils/auth_manage.rs: rotation_leader_index"]}
{"id": "C17", "title": "Leadership rotates over heights", "statement": "With the default rotation, over any n consecutive heights each of the n validators leads round 0 exactly once.", "quantifier": "every starting height and list size n", "why_tests_cant": "number-theoretic (the prime step must be coprime to n) for all n", "anchors": ["src/utils/auth_manage.rs: rotation_leader_index"]}
{"id": "C18", "title": "Weighted random leader is total and proportional", "statement": "With the random_leader feature and a positive weight sum, the chosen index is always in range, a zero-weight validator is never chosen, and the number of accepted 64-bit random digits that select validator i is exactly proportional to its propose weight.", "quantifier": "every weight vector, every random digit", "why_tests_cant": "counting over the full 2^64 digit space", "anchors": ["src/utils/rand_proposer.rs: get_random_proposer_index"]}
{"id": "C19", "title": "Only quorum certificates above threshold are acted on", "statement": "An aggregated vote received from the network is acted on only if the validators in its bitmap hold more than two thirds of the weight and its aggregated signature verifies for exactly those validators.", "quantifier": "every aggregated vote and authority list", "why_tests_cant": "adversarial inputs", "anchors": ["src/state/parallel.rs: verify_qc, get_voters", "src/state/process.rs: handle_aggregated_vote"]}
{"id": "C20", "title": "Evidence carried inside chokes and proposals is verified", "statement": "A quorum certificate embedded in a choke message, a choke certificate, and the proof of lock change embedded in a proposal have the same effect only if they would be accepted on their own: valid signature, above threshold, issued by current validators and, for a proposal, about the proposed block and the claimed lock round.", "quantifier": "every signed choke and every signed proposal", "why_tests_cant": "adversarial inputs", "anchors": ["src/state/process.rs: handle_signed_choke, handle_aggregated_choke, handle_signed_proposal", "src/state/parallel.rs: parallel_verify", "src/state/collection.rs: ChokeCollector"]}
{"id": "C21", "title": "No message is processed unauthenticated", "statement": "Every proposal, vote, aggregated vote or choke that is processed for the node's current height has had its signature checked against the current authority list.", "quantifier": "every schedule of message arrival, verification and height changes", "why_tests_cant": "the violating schedule is a race between message reception and a height change", "anchors": ["src/state/process.rs: run, handle_msg, goto_new_height", "src/state/parallel.rs: parallel_verify"]}
{"id": "C22", "title": "Wire and WAL encodings round-trip", "statement": "For every message, vote, certificate, choke, commit, proof, node and WAL record, decoding the RLP encoding gives back the same value.", "quantifier": "every value with u64/u32-range integers and byte strings of any length below 2^64, for every content codec that round-trips", "why_tests_cant": "all values, including length boundaries 0/1/55/56/2^k", "anchors": ["src/codec.rs", "src/wal/wal_type.rs"]}
{"id": "C23", "title": "Status encoding round-trips", "statement": "Decoding the RLP encoding of a rich status gives back the same status, including optional interval and timer configuration.", "quantifier": "every Status value", "why_tests_cant": "sentinel values inside an option", "anchors": ["src/codec.rs: impl Encodable/Decodable for Status"]}
{"id": "C24", "title": "Signed bytes determine the message and its kind", "statement": "Two different votes, or two different proposals, never have the same signing bytes, and the signing bytes of a vote, of a proposal and of a choke are always different, so a signature can not be replayed for another message or message kind; a choke signature binds all fields of the choke.", "quantifier": "every pair of messages", "why_tests_cant": "injectivity over all pairs", "anchors": ["src/codec.rs", "src/state/process.rs: sign_vote, sign_proposal, handle_brake", "src/state/parallel.rs: parallel_verify", "src/types.rs: HashChoke"]}
{"id": "C25", "title": "Decoding never panics", "statement": "Decoding arbitrary bytes as any message or WAL type returns a value or an error and never panics.", "quantifier": "every byte string", "why_tests_cant": "all byte strings", "anchors": ["src/codec.rs: Decodable for UpdateFrom, WalInfo", "src/smr/smr_types.rs: From<u8> for Step"]}
{"id": "C26", "title": "Timeouts grow with the round and are capped", "statement": "The timeout armed for a propose, prevote or precommit step in round r is the configured ratio of the interval times 2^min(r,5), is monotone in the round, and a brake timeout is never scaled.", "quantifier": "every configuration, interval and round", "why_tests_cant": "all rounds, including u64 -> u32 truncation", "anchors": ["src/timer.rs: set_timer", "src/utils/timer_config.rs"]}
{"id": "C27", "title": "A live timer always backs the current step", "statement": "Whenever a node is in the propose, prevote, precommit or brake step, a timer for exactly its current height, round and step is armed or its expiry is still to be processed, so the node can not wait forever; and that expiry is not filtered out.", "quantifier": "every schedule of triggers and timer expiries", "why_tests_cant": "all interleavings of timer and state machine", "anchors": ["src/timer.rs", "src/smr/state_machine.rs"]}
{"id": "C28", "title": "Outdated timeouts are dropped", "statement": "A timer that was armed for an earlier height never reaches the state machine once the timer has seen the new height, and any timeout that does reach it names the height and round for which it was armed and carries no hash and no lock.", "quantifier": "every event and timer state", "why_tests_cant": "all interleavings", "anchors": ["src/timer.rs: trigger, set_timer"]}
{"id": "C29", "title": "Write-ahead: nothing is voted before it is logged", "statement": "Whenever a vote or choke leaves the node (broadcast, transmitted or put in the own pool) a WAL record with the same height, round and the corresponding step has just been saved successfully; if saving fails nothing leaves the node.", "quantifier": "every state, every event and every outcome of the storage and of the network calls", "why_tests_cant": "all crash points and storage failures", "anchors": ["src/state/process.rs: handle_vote_event, handle_brake, save_wal_with_lock_round"]}
{"id": "C30", "title": "Restart resumes exactly where the WAL says", "statement": "After a restart with a WAL record the node resumes at the recorded height, round, step and lock, and never again votes in a step of that round that the record marks as done; a record at the commit step re-issues the same commit (same content, same proof).", "quantifier": "every WAL record and every continuation after restart", "why_tests_cant": "all crash points", "anchors": ["src/state/process.rs: start_with_wal, handle_commit", "src/smr/state_machine.rs: handle_wal", "src/wal/wal_type.rs"]}
{"id": "C31", "title": "A correct node never equivocates", "statement": "Over its whole life, including crashes and restarts at any point, a node never releases two different votes for the same height, round and vote type.", "quantifier": "every schedule of messages, events, timeouts, statuses and crashes", "why_tests_cant": "schedules and crash points are unbounded", "anchors": ["src/state/process.rs: handle_vote_event, goto_new_height", "src/smr/state_machine.rs"]}
{"id": "C32", "title": "Committed data is consistent with its proof", "statement": "Each commit() call is given the node's height, a proof whose height, round, block hash and signature are those of a precommit quorum certificate held for that hash, and the block content stored under that hash; the commit is logged before commit() is invoked.", "quantifier": "every state and every commit event", "why_tests_cant": "all states", "anchors": ["src/state/process.rs: handle_commit"]}
{"id": "C33", "title": "Committed content has passed the application's check", "statement": "The content passed to commit() is content for which the application's check_block succeeded at this height (with that hash), or content this node obtained from get_block.", "quantifier": "every schedule and every Byzantine proposer", "why_tests_cant": "needs a Byzantine proposer and a particular order", "anchors": ["src/state/process.rs: handle_signed_proposal, handle_resp, handle_commit, check_block"]}
{"id": "C34", "title": "No quorum certificate is acted on before the block is checked", "statement": "The state module hands a quorum certificate for a non-empty hash to the voting state machine only after the application reported success for that hash; therefore precommits and commits of a block follow its check.", "quantifier": "every handler, every state, every message", "why_tests_cant": "all interleavings of check completion and QC arrival", "anchors": ["src/state/process.rs: handle_signed_vote, handle_aggregated_vote, vote_process, handle_resp, try_get_full_txs"]}
{"id": "C35", "title": "Nodes outside the authority list are silent", "statement": "A node whose address is not in the current authority list signs nothing, sends nothing, logs nothing and commits nothing; it only follows rich statuses.", "quantifier": "every message and event", "why_tests_cant": "all inputs", "anchors": ["src/state/process.rs: run, handle_msg, goto_new_height, start_with_wal"]}
{"id": "C36", "title": "Caching of future messages is bounded to a window", "statement": "Proposals and votes are stored only for heights from the current one up to five ahead and rounds up to ten ahead; anything else is ignored; messages of lower heights or lower rounds are ignored.", "quantifier": "every message in every state", "why_tests_cant": "all heights and rounds including boundaries", "anchors": ["src/state/process.rs: filter_message, filter_signed_proposal, handle_aggregated_vote"]}
{"id": "C37", "title": "Only the designated proposer's first proposal counts", "statement": "A proposal is stored or acted on only if its proposer is the leader of its height and round in the current authority list; for each (height, round) at most one proposal is kept, and a conflicting second one is refused.", "quantifier": "every sequence of proposals", "why_tests_cant": "all sequences", "anchors": ["src/state/process.rs: handle_signed_proposal, verify_proposer", "src/state/collection.rs: ProposalCollector"]}
{"id": "C38", "title": "Rich status moves the node forward only", "statement": "A rich status for a height not above the current one is ignored; otherwise the node adopts exactly its height, round 0, its authority list and interval, drops state older than the previous height, and re-verifies everything cached for the new height before using it.", "quantifier": "every status in every state", "why_tests_cant": "all states", "anchors": ["src/state/process.rs: goto_new_height", "src/state/collection.rs: flush"]}
{"id": "C39", "title": "Collectors keep exactly what is not outdated", "statement": "flush(till) removes exactly the entries of heights below till; get_height_* removes and returns exactly the entries of that height.", "quantifier": "every collector content and height", "why_tests_cant": "all contents", "anchors": ["src/state/collection.rs: flush, get_height_proposals, get_height_votes"]}
{"id": "C40", "title": "View changes are reported exactly once with the right data", "statement": "Each move to a non-zero round reports exactly one view change carrying the node's height, the round left, and a reason consistent with how the node left it; moving to round 0 reports none.", "quantifier": "every new-round event in every state", "why_tests_cant": "all states", "anchors": ["src/state/process.rs: handle_new_round, view_change_reason"]}
{"id": "C41", "title": "Brake: two thirds of chokes always unblock a round", "statement": "As soon as a node holds chokes of a round not below its own from more than two thirds of the number of validators it orders the move to the next round, aggregates exactly those chokes, and the highest such round wins; below that it never moves on account of chokes.", "quantifier": "every choke collector content", "why_tests_cant": "all contents", "anchors": ["src/state/process.rs: check_choke_above_threshold, handle_brake, handle_signed_choke", "src/state/collection.rs: max_round_above_threshold"]}
{"id": "C42", "title": "Stop shuts the node down cleanly", "statement": "Sending OverlordMsg::Stop through the handler makes run() return without processing further messages and without panicking.", "quantifier": "every state of the node", "why_tests_cant": "the handler path is only exercised in integration tests, which can not tell a panic of the task from a shutdown", "anchors": ["src/state/process.rs: run, handle_msg", "src/types.rs: OverlordMsg::get_height", "src/smr/state_machine.rs: poll_next"]}
{"id": "C43", "title": "Agreement", "statement": "If validators with at most one third of the vote weight are Byzantine, no two correct nodes ever pass different blocks to commit() for the same height.", "quantifier": "every number of validators and weights, every Byzantine behaviour, every network schedule, every run length", "why_tests_cant": "the core safety claim; quantifies over all executions of a distributed system", "anchors": ["src/smr/state_machine.rs", "src/state/process.rs", "src/state/collection.rs", "src/utils/auth_manage.rs", "src/state/parallel.rs"]}
{"id": "C44", "title": "Agreement survives crashes", "statement": "Agreement also holds when correct nodes crash at arbitrary points and restart from their WAL.", "quantifier": "as for agreement, plus every crash point and any number of restarts", "why_tests_cant": "all crash points in all executions", "anchors": ["src/smr/state_machine.rs: handle_wal", "src/state/process.rs: save_wal*, start_with_wal", "src/wal/wal_type.rs"]}
{"id": "C45", "title": "Good-case progress", "statement": "In a round with a correct leader in which proposal, votes, certificates and block checks are delivered before the timeouts, every correct unlocked (or suitably locked) node commits the leader's block in that round.", "quantifier": "every height, round, block and validator set", "why_tests_cant": "for all validator sets and starting states", "anchors": ["src/smr/state_machine.rs", "src/state/process.rs"]}
{"id": "C46", "title": "Restart never goes behind the starting height", "statement": "A node started with run(init_height, ...) never takes part in consensus for a height below init_height.", "quantifier": "every WAL content and init_height", "why_tests_cant": "WAL content and init height vary independently", "anchors": ["src/state/process.rs: start_with_wal", "src/overlord.rs: run"]}
{"id": "C47", "title": "Hex form of byte fields round-trips", "statement": "Serialising a byte string field to hex and back gives the same bytes, and lists of byte strings keep their order and length.", "quantifier": "every byte string", "why_tests_cant": "all byte strings", "anchors": ["src/serde_hex.rs", "src/serde_multi_hex.rs"]}
{"id": "C48", "title": "No input panics or ends a running node", "statement": "As long as the application's contents always encode, the validator lists it gives (at start, in commit() and in statuses) are usable for choosing a leader, nobody sends Stop and the WAL holds no impossible tag, a started node goes on running: no sequence of messages (genuine or forged, for any height and round, in any order), timeouts, block check results, storage, crypto or application failures panics or ends its main task, its voting task or its timer, and every start succeeds.", "quantifier": "every history of inputs, environment answers, crashes and restarts, every validator set", "why_tests_cant": "a remote panic needs just one bad input sequence among all; tests send only well-formed traffic", "anchors": ["src/state/process.rs", "src/smr/state_machine.rs", "src/state/collection.rs", "src/utils/auth_manage.rs", "src/timer.rs"]}
{"id": "C49", "title": "Every live input takes effect", "statement": "A node's voting logic acts at once on every input that is not out of date: a fitting proposal or the propose timeout is answered by a prevote, a prevote quorum of its round (or a later one) by a precommit for the same block and a lock on it, the prevote timeout by an empty precommit, a precommit quorum for a block by its commit, an empty one by the next round, the precommit and brake timeouts by a choke, a choke quorum by the ordered round, a higher status by round 0 of its height. It reacts to nothing else, and once it has handled a prevote quorum or a choke quorum of a round it is in that round or later ever after.", "quantifier": "every reachable state of the voting logic, every input", "why_tests_cant": "a single ignored input in one state among all can block a height for ever; tests try one path", "anchors": ["src/smr/state_machine.rs: handle_proposal, handle_prevote, handle_precommit, handle_continue_round, handle_new_height, handle_brake_timeout"]}
{"id": "C50", "title": "No unchecked block is precommitted or committed", "statement": "Whatever arrives and however a node is crashed and restarted: before a precommit for a block leaves the node, and before a running node passes a block to commit(), its own application's check_block has succeeded for that block hash since the node's last start. If hashes are unambiguous, that check was of this very block at this height.", "quantifier": "every history of messages, failures, crashes and restarts of a node", "why_tests_cant": "the answer of check_block arrives asynchronously, before or after the proposal's certificates, possibly for an abandoned round or an earlier life of the node", "anchors": ["src/state/process.rs: check_block, handle_resp, try_get_full_txs, handle_aggregated_vote, handle_signed_vote", "src/smr/state_machine.rs: handle_prevote, handle_precommit"]}
{"id": "C51", "title": "A committed block was validated by correct validators", "statement": "If validators with at most one third of the vote weight are Byzantine, then whenever a correct node passes a block to commit(), correct validators with more than a third of the weight have precommitted exactly this block and their own applications' check_block has succeeded for it.", "quantifier": "every number of validators and weights, every Byzantine behaviour, every schedule with crashes and restarts", "why_tests_cant": "external validity quantifies over all executions of the network", "anchors": ["src/smr/state_machine.rs", "src/state/process.rs", "src/state/collection.rs", "src/utils/auth_manage.rs"]}
{"id": "C52", "title": "Correct nodes send only what is genuine", "statement": "What a correct node sends is backed by votes that were really cast: its votes are in its own name, every certificate it broadcasts, the lock certificate in its proposals and the certificate that justifies its chokes each stand for more than two thirds of the weight of its height, counting votes released by correct validators and whatever faulty ones claim.", "quantifier": "every history of a network: messages of faulty validators, schedules, crashes, restarts", "why_tests_cant": "a certificate travels through stores, locks, WAL records and chokes before it is sent again; all paths matter", "anchors": ["src/state/process.rs: try_get_vote, handle_new_round, handle_brake, set_update_from, save_wal_with_lock_round", "src/state/collection.rs"]}
{"id": "C53", "title": "Orders of the voting logic are carried out", "statement": "If faulty validators hold at most a third of the weight, block hashes are unambiguous and certificates are genuine, then no order that a correct node's voting logic gives for the node's current height is lost for lack of a stored lock, certificate or block. If saving and signing work: an ordered vote is saved and released in the node's own name to the leader of the round; an ordered choke is broadcast; an ordered block is passed to commit() with its content and a precommit certificate that stands for more than two thirds of the weight; an ordered round is entered and saved with the lock, and a leader proposes in it: its locked block together with the prevote certificate it is locked on, otherwise the block its application gives it.", "quantifier": "every history of a network: messages of faulty validators, schedules, crashes, restarts; every next order of a correct node", "why_tests_cant": "the stores are filled, flushed and overwritten by messages of all rounds in any order, and rebuilt from records after a crash; one missing entry silences the node for the round", "anchors": ["src/state/process.rs: handle_new_round, handle_vote, handle_commit, handle_brake, save_wal_with_lock_round, start_with_wal", "src/smr/state_machine.rs: handle_proposal, handle_prevote, handle_precommit", "src/state/collection.rs"]}
{"id": "C54", "title": "A round does not last for ever", "statement": "If more than two thirds of the validators of a height stay up, their tasks go on, their storage and signatures work and the chokes they broadcast arrive among them, then they do not stand still: some of them asks its application to commit a block, reaches a later height, or enters a later round, whatever other messages are lost, delayed or made up by faulty validators (at most a third of the weight).", "quantifier": "every infinite history of a network: message losses and delays, messages of faulty validators, schedules, crashes and restarts before and of other nodes", "why_tests_cant": "liveness: it ranges over infinite histories, and any interleaving of timeouts, rebroadcasts, verifications and block checks could starve the one step that is needed", "anchors": ["src/smr/state_machine.rs: handle_brake_timeout, handle_choke_qc, handle_prevote, handle_precommit", "src/state/process.rs: handle_brake, handle_signed_choke, check_choke_above_threshold", "src/timer.rs: Timer"]}
{"id": "C55", "title": "Chokes explain their round", "statement": "A choke (request to give up a round) that a correct node broadcasts for round r >= 1 carries the reason for which the node is in that round: a prevote certificate of round r-1 of the same height, a precommit certificate of round r-1 of the same height for no block, or a choke certificate of round r-1 naming more than two thirds of the validators. The vote certificates are backed by more than two thirds of the weight. The same holds of every WAL record a node saves, so also after a restart.", "quantifier": "every history of a network: messages of faulty validators, schedules, crashes, restarts; every choke and record of a correct node", "why_tests_cant": "the reason is looked up in stores that any message may change between the order to enter a round and its execution, it is saved, reloaded and sent again much later", "anchors": ["src/state/process.rs: handle_new_round, set_update_from, handle_brake, start_with_wal, check_choke_above_threshold, handle_signed_choke", "src/smr/state_machine.rs: handle_prevote, handle_precommit, handle_choke_qc"]}
{"id": "C56", "title": "Verified messages are genuine", "statement": "If nobody can forge signatures of correct validators, then a vote in the name of a correct validator that a node counts was really cast by that validator, and a certificate a node acts on, received as such or as lock evidence in a proposal, stands for votes really cast by every correct validator its bitmap names; if the bitmap is above the threshold, it is backed by more than two thirds of the weight (faulty validators counted as willing). This holds for messages received after the node reached their height.", "quantifier": "every history of a network: messages of faulty validators, schedules, crashes, restarts; every signature scheme that is unforgeable", "why_tests_cant": "verification runs in separate tasks with a copy of the validator list, its result is used later, when the node may have changed height, list or have been restarted", "anchors": ["src/state/parallel.rs: parallel_verify, verify_qc, get_voters", "src/state/process.rs: run, handle_msg, goto_new_height", "src/utils/auth_manage.rs: get_voters"]}
{"id": "C57", "title": "Messages handed to the handler are processed in order, exactly once", "statement": "On one Overlord object: messages for which send_msg returned Ok are taken up by the node at most once, in the order of the calls, none is invented, and none is lost while run() has not ended (also those sent before run()); if the loop goes on, each is eventually taken up. send_msg never blocks, returns Ok until run() has ended and Err afterwards; get_handler always works; run() goes through once, a second call panics and changes nothing for the running one.", "quantifier": "every sequence of calls on the object and its handlers, interleaved in any way with the steps of the node's tasks, with crashes and dropped futures; infinite histories for the last clause", "why_tests_cant": "the interleavings of callers with the running tasks are unbounded; a test sees a few", "anchors": ["src/overlord.rs: Overlord::new, get_handler, run, OverlordHandler::send_msg", "src/state/process.rs: run"]}
{"id": "C58", "title": "When run() ends, so do the tasks it started", "statement": "When run() ends (its future is dropped, or it panics), the tasks it has spawned (voting state machine, timer, timeouts, verifications, block checks) stop: they do only finitely many further steps and then no task is left.", "quantifier": "every history of a node before run() ends, every order of the remaining steps", "why_tests_cant": "depends on which channel ends each task holds, and on what is pending at that moment", "anchors": ["src/overlord.rs: run", "src/smr/mod.rs: SMR::run", "src/smr/state_machine.rs: poll_next, throw_event", "src/timer.rs: poll_next, run"]}
{"id": "C59", "title": "Committed blocks were proposed by a leader (validity)", "statement": "Every block that a correct node commits at a height - like every block it proposes or keeps as its lock - was made for this height by the application of a correct node that was asked for it as leader of one of the rounds, or came in a proposal for this height by a faulty leader of the proposal's round. No certificate, vote or choke, however forged, makes a correct node commit a block that no leader proposed; if all possible leaders of a height are correct, the block is one their applications made.", "quantifier": "all networks of any number of nodes, correct or faulty, all schedules, crashes and restarts, all messages", "why_tests_cant": "the claim is about every interleaving and every forged message a faulty node can send; tests try a few", "anchors": ["src/state/process.rs:handle_new_round", "src/state/process.rs:handle_signed_proposal", "src/state/process.rs:handle_commit", "src/state/process.rs:verify_proposer", "src/state/process.rs:goto_new_height", "src/state/process.rs:load_wal"]}
{"id": "C60", "title": "No amplification", "statement": "Whatever a node takes up - a message from the network, verified or not, a decision of its own voting state machine, an answer of the application, its start - it does a bounded and small amount of work for it: it sends at most one message, hands over at most one block, asks for at most one block and one check, writes at most two log records. Of the messages from others only votes make it send anything at once, and messages that fail verification never do. Over a whole life with crashes and restarts, the messages it has sent are at most the decisions, verified messages and starts it has taken up.", "quantifier": "all states, inputs, answers of application and crypto library; all lives of a node with crashes and restarts", "why_tests_cant": "a single state in which a message causes a second broadcast would be enough for a storm between nodes; tests visit few states", "anchors": ["src/state/process.rs:run", "src/state/process.rs:handle_event", "src/state/process.rs:handle_msg", "src/state/process.rs:handle_vote_event", "src/state/process.rs:vote_process", "src/state/process.rs:handle_signed_vote", "src/state/process.rs:start_with_wal"]}
{"id": "C61", "title": "A certificate is broadcast once", "statement": "Between two restarts a node broadcasts the certificate of a round and type once: votes that arrive when the certificate exists have no effect at all.", "quantifier": "all states, all sequences of inputs and answers between two restarts", "why_tests_cant": "the repetition depends on which votes arrive after the certificate and in which order", "anchors": ["src/state/process.rs:handle_signed_vote", "src/state/process.rs:vote_process", "src/state/process.rs:counting_vote", "src/state/collection.rs:get_qc_by_id"]}
{"id": "C62", "title": "A commit's proof convinces outsiders, and no two accepted proofs of a height conflict", "statement": "The proof in every Commit that a node passes to commit() is accepted by somebody who follows no messages and has only the validator list of the height and the verification half of the signature scheme: extract_voters names the signers, they have more than two thirds of the weight, and the aggregated signature is theirs, on the precommit for the committed hash. The same holds for every certificate a node broadcasts (alone, as lock evidence, as the reason in a choke) or saves. With at most a third of the weight faulty and unforgeable signatures, no two acceptable proofs of one height are for different blocks, and an acceptable proof is for the block that correct nodes commit.", "quantifier": "every validator list with distinct addresses and summable weights, every life of a node with crashes and restarts, every signature scheme, every proof an adversary can show", "why_tests_cant": "ranges over all executions and all adversaries; it connects vote counting, bitmap encoding, aggregation, the verification path and agreement across nodes", "anchors": ["src/state/process.rs:handle_commit", "src/state/process.rs:generate_qc", "src/state/process.rs:counting_vote", "src/utils/auth_manage.rs:extract_voters", "src/state/parallel.rs:verify_qc"]}
{"id": "C63", "title": "The documented self-checks of the voting logic always hold", "statement": "The voting state machine documents conditions it checks before each message is processed (the code of the check is commented out): a lock is on a block; the locked block is the current proposal; in round 0 there is no lock before the precommit step; in the propose step the current proposal is empty unless there is a lock; in the precommit step there is a current proposal exactly if there is a lock. Each of them holds before and after every trigger, fresh or resumed from a stored record, so that the check would never fail; where one does not hold, it has no effect on anything the machine orders.", "quantifier": "every list of triggers (certificates, proposals, timeouts, chokes, new heights) after a fresh start or a start from any sound record", "why_tests_cant": "a state invariant of the machine, over all lists of triggers", "anchors": ["src/smr/state_machine.rs: check, update_polc, handle_proposal, handle_prevote, goto_next_round, handle_wal"]}
{"id": "C64", "title": "Messages that arrive before their height are not lost", "statement": "A vote, proposal or certificate for one of the next heights that reaches a validator which is still at a lower height is not lost: when the node gets to that height it verifies the message against the validator list of that height and handles it, whatever other messages, timeouts and heights came in between.", "quantifier": "every state of the node, every message for a height and round inside the window, every sequence of inputs and answers of application, storage and crypto library until the node reaches the height", "why_tests_cant": "the cache is filled, flushed and emptied by every height change and shared with all other messages; the claim is about all interleavings", "anchors": ["src/state/process.rs:handle_signed_vote", "src/state/process.rs:filter_signed_proposal", "src/state/process.rs:handle_aggregated_vote", "src/state/process.rs:goto_new_height", "src/state/process.rs:re_check_votes", "src/state/process.rs:re_check_proposals", "src/state/collection.rs:flush", "src/state/collection.rs:get_height_votes", "src/state/collection.rs:get_height_proposals"]}
{"id": "C65", "title": "The chain keeps growing", "statement": "Let the live nodes have more than two thirds of the weight at every height, let the leader of the first round of each of the next K heights be live, and let the live nodes be at the beginning of the first of these heights. As long as no timeout fires, no live node crashes and the application and storage do their work, then, for any interleaving of the nodes (which may be at different heights), any order, delay and repetition of messages: when the messages of the first k+1 heights have arrived and been taken up, every live node has committed the block of each of these heights in the first round; and at every moment a node has handed over exactly the blocks of the heights below its own, in order, once each.", "quantifier": "all numbers of heights, validator lists (changing from height to height), leaders and blocks, all schedules of any number of nodes, all messages of faulty validators that do no harm", "why_tests_cant": "a statement about unboundedly many heights and all interleavings of nodes at different heights; tests run a few heights in one order", "anchors": ["src/state/process.rs:handle_commit", "src/state/process.rs:goto_new_height", "src/state/process.rs:handle_new_round", "src/state/process.rs:handle_signed_proposal", "src/state/process.rs:handle_signed_vote", "src/state/process.rs:handle_aggregated_vote", "src/smr/state_machine.rs:goto_new_height", "src/smr/state_machine.rs:trigger"]}
{"id": "C66", "title": "What a node keeps in memory is bounded", "statement": "Whatever peers send, in whatever amount, what a running node keeps is bounded by a function of the number of validators and of the round it is in: votes and proposals (one per height, round, type and validator, resp. per height and round, for at most seven heights in a row and at most ten rounds ahead, votes only of validators), and likewise certificates, blocks, chokes and the results of block checks.", "quantifier": "all histories of messages, events and application answers from the start of a node, all numbers of messages, all validator lists", "why_tests_cant": "a bound for all message floods; a test sends finitely many messages and cannot show that no flood grows the stores", "anchors": ["src/state/process.rs:filter_message", "src/state/process.rs:handle_signed_vote", "src/state/process.rs:handle_signed_proposal", "src/state/process.rs:handle_aggregated_vote", "src/state/process.rs:handle_signed_choke", "src/state/process.rs:goto_new_height", "src/state/collection.rs:VoteCollector", "src/state/collection.rs:ProposalCollector", "src/state/collection.rs:ChokeCollector"]}
{"id": "C67", "title": "Blocks keep the block interval, and no one waits longer than that", "statement": "A validator that has committed a block and leads the first round of the next height starts that height no earlier than the block interval in force (the last one a status brought, at first the one passed to run()) after it started the height it leaves. It pauses only then, at most once per commit and at most one interval; validators that do not lead the next height, and heights that start because of a status from the application, do not wait. The pause ends one interval after the height it leaves was started, and nobody outside can prolong it. Timing has no influence on anything else a node does.", "quantifier": "all histories of inputs with all durations of the awaited calls, of the waits for input and of the scheduler", "why_tests_cant": "durations and interleavings range over everything; tests run with a handful of timings on one machine", "anchors": ["src/state/process.rs:handle_commit", "src/state/process.rs:goto_new_height", "src/state/process.rs:handle_signed_proposal", "src/state/process.rs:next_proposer", "src/state/process.rs:State::new", "src/types.rs:Status"]}
{"id": "C68", "title": "The random order of hash tables makes no difference", "statement": "Rust iterates its hash tables in an order that is random in every run. Two runs of a node that get the same inputs and the same answers of application, storage and cryptography nevertheless do the same: they send the same proposals, votes and certificates, commit the same blocks, ask for and check the same blocks, report the same view changes, write the same log records, broadcast the same chokes and are in the same state after every input. Only the order of the voters named inside a choke certificate, and the order in which checks of cached messages are started, may differ.", "quantifier": "all iteration orders (a different one for every table and every iteration), all histories of inputs and answers from the start of a node", "why_tests_cant": "the order is random and changes from run to run; a test sees one of exponentially many and cannot compare two", "anchors": ["src/state/collection.rs:VoteCollector::get_votes", "src/state/collection.rs:Votes::get_votes", "src/state/collection.rs:ProposalCollector::get_height_proposals", "src/state/collection.rs:VoteCollector::get_height_votes", "src/state/collection.rs:ChokeCollector::get_chokes", "src/state/process.rs:counting_vote", "src/state/process.rs:generate_qc", "src/state/process.rs:check_choke_above_threshold", "src/state/process.rs:re_check_proposals", "src/state/process.rs:re_check_votes"]}
{"id": "C69", "title": "Messages may arrive any number of times", "statement": "A network may repeat messages. If some messages (or answers of block checks) reach a node several times in a row instead of once, the node ends in the same state, and it sends the same votes, proposals and chokes, writes the same log records, asks for the same blocks, commits the same blocks and reports the same view changes, in the same order; and it does nothing else (certificate broadcasts, triggers of the voting logic, block checks) that it did not do without the repetitions.", "quantifier": "all histories of messages, answers, timer events and hash orders, all states to start from, any number of repetitions of any of the messages, all answers of application, storage and cryptography (the same for the copies of a message)", "why_tests_cant": "every handler of every kind of message in every state must be idempotent; a test sends one message twice in one state", "anchors": ["src/state/process.rs:handle_signed_vote", "src/state/process.rs:handle_signed_proposal", "src/state/process.rs:handle_aggregated_vote", "src/state/process.rs:handle_signed_choke", "src/state/process.rs:handle_resp", "src/state/process.rs:goto_new_height", "src/state/collection.rs:VoteCollector::insert_vote", "src/state/collection.rs:ProposalCollector::insert", "src/state/collection.rs:ChokeCollector::insert"]}
{"id": "C70", "title": "A leader makes one proposal per round", "statement": "Over its whole life, crashes in the middle of any input and restarts included, a node sends at most one proposal for a given height and round, whatever blocks the application makes when it is asked; its proposals are for ever later heights and rounds, and the record that a restart finds is never before a proposal that was sent.", "quantifier": "Every schedule of messages, timers, application answers, crash points and restarts of a node; every pair of proposals it sends", "why_tests_cant": "A leader asks the application for a block whenever it enters a round; whether it can enter the same round twice depends on the interleaving of pending orders, certificates and statuses and on what is on disk at each crash point.", "anchors": ["src/smr/state_machine.rs::StateMachine::handle_new_height", "src/smr/state_machine.rs::StateMachine::handle_precommit", "src/state/process.rs::State::handle_new_round", "src/state/process.rs::State::start_with_wal", "src/state/process.rs::State::goto_new_height"]}
{"id": "C71", "title": "Conflicting messages prove who is faulty", "statement": "Nobody who follows the protocol can be framed, however many of the others are faulty: two valid signatures in one name on different votes for the same height, round and type, or on different proposals for the same height and round, exist only if that validator is faulty; if two certificates for different blocks and the same height, round and type are both acceptable to an outsider, the validators that both name have more than a third of the weight and every one of them is faulty.", "quantifier": "Every execution of a network with any set of faulty nodes; every pair of signed votes, certificates and signed proposals, wherever they come from", "why_tests_cant": "Accountability (slashing) is about every message that ever leaves a correct node, over all schedules, crashes and restarts, against evidence that faulty nodes may assemble from anything they have seen.", "anchors": ["src/smr/state_machine.rs::StateMachine::handle_proposal", "src/smr/state_machine.rs::StateMachine::handle_prevote", "src/state/process.rs::State::handle_vote_event", "src/state/process.rs::State::handle_new_round", "src/state/process.rs::State::start_with_wal", "src/utils/auth_manage.rs::extract_voters"]}
{"id": "C72", "title": "The application gets each height once and in order, and again only identically after a crash", "statement": "The heights for which a node calls the application's commit never go down over its whole life, restarts included. If the application always commits and answers with a later height, then of two calls the later one is for a later height, or it is the very same commit (height, content and proof), and such a repetition happens only across a restart: while the node is not restarted the heights rise strictly and are all above those handed over before.", "quantifier": "every life of one node: any messages, certificates (genuine or not), statuses, timeouts, orders and interleavings, crashes in the middle of any input (after any number of effects), any number of restarts at which the storage returns the record saved last", "why_tests_cant": "A unit test hands over one block; a repeated or skipped-back height would need a particular crash point between the call and the next record, or a particular sequence of certificates for old heights.", "anchors": ["src/smr/state_machine.rs: handle_prevote, handle_precommit", "src/state/process.rs: handle_commit, start_with_wal, goto_new_height, save_wal"]}
{"id": "C73", "title": "All correct nodes apply one and the same sequence of blocks", "statement": "There is one chain, a block hash for every height, such that every commit that any correct node hands to its application at any time is that of the chain, and every node hands them over in the order of the heights. Two correct nodes that have been given blocks for the same heights up to K have been given the same sequence of blocks up to K (repetitions after a crash left out).", "quantifier": "every network of any size with at most a third of the weight at faulty validators, every schedule of all nodes with crashes in the middle of any input and restarts, every message faulty nodes may send, every height K", "why_tests_cant": "The sequence an application sees depends on the whole history of the network; tests compare a few heights of nodes that run in one process and never crash between two effects.", "anchors": ["src/smr/state_machine.rs: StateMachine", "src/state/process.rs: handle_commit, start_with_wal, goto_new_height", "src/overlord.rs: run"]}
{"id": "C74", "title": "What a node records only goes forward, and a recorded commit is never overwritten by anything of its height", "statement": "Whatever a node writes to its storage over its whole life, restarts included, each record is for a place (height, round, step) at or after all earlier ones, and after the record of a commit the next record of that height, if any, is that of the same commit. So the record a restart finds stands for the furthest place the node ever recorded, and a running validator is never before a place it recorded.", "quantifier": "every life of one node: any messages, certificates, statuses, timeouts and interleavings, crashes in the middle of any input (after any number of effects), any number of restarts at which the storage returns the record saved last", "why_tests_cant": "The storage keeps only the last record, so one record that goes back loses a lock or a decided block; whether one can be written depends on which timeouts and orders are still pending when a certificate arrives, and on where the node crashed before.", "anchors": ["src/state/process.rs: save_wal, handle_commit, handle_brake, goto_new_height, start_with_wal", "src/smr/state_machine.rs: handle_brake_timeout, trigger", "src/timer.rs: Timer"]}
{"id": "C75", "title": "No height is left out", "statement": "If the application always answers a commit with the status of the next height, the heights a node hands to the application over its whole life are h0, h0+1, h0+2 and so on, where h0 is the height it was first started with: none is left out and none comes out of order (a height can be handed over again after a crash). A running validator at height k has handed over all heights from h0 up to k, and so has a node whose storage holds a record of height k.", "quantifier": "every life of one node: any messages, certificates, timeouts and interleavings (but no status from outside that takes the node to a later height), crashes in the middle of any input, any number of restarts at which the storage returns the record saved last", "why_tests_cant": "A gap would need a certificate of a later height, a queued trigger of another height, or a record saved before the commit it follows; which of these can meet depends on the interleaving of three state machines and on the crash point.", "anchors": ["src/state/process.rs: handle_commit, goto_new_height, start_with_wal, handle_aggregated_vote", "src/smr/state_machine.rs: goto_new_height, trigger, process_events", "src/types.rs: Status"]}
{"id": "C76", "title": "What is over is over", "statement": "Messages about the past make no difference. A verified proposal, vote, choke or certificate of an earlier height, a proposal, vote or choke of an earlier round, a prevote certificate or an empty precommit certificate of an earlier round, and a status of a height that is not later are ignored without any trace in every state; they can be added to a history anywhere in any number, and the node ends in the same state and does the same. Messages about earlier heights that still wait inside a node (for their check or for their turn) make nothing possible and stop nothing: what the node can go on to do with them and without them is the same, over its whole further life. So for every life there is one with the same actions in which no message about an earlier height ever arrives.", "quantifier": "all states, messages, answers of application, storage and cryptography; all histories with messages about the past inserted anywhere; all lives of a node with crashes and restarts, any number of waiting messages (for 'stop nothing': usable validator lists as in C48)", "why_tests_cant": "A late message meets collectors, caches, queues and running checks that the height change has just flushed or not yet flushed; whether anything of it survives depends on the state and on what is in flight, and comparing two whole lives is beyond any test.", "anchors": ["src/state/process.rs: filter_message, handle_signed_proposal, handle_signed_vote, handle_aggregated_vote, handle_signed_choke, goto_new_height, run", "src/state/parallel.rs: parallel_verify"]}
{"id": "C77", "title": "A certificate exactly when the votes suffice, whatever their order", "statement": "To a node that has nothing collected for its height and round, verified votes are handed one after the other, of whatever voters, heights, rounds and types. If signatures can be aggregated, it broadcasts a certificate of a type for a block exactly if the validators whose first vote for its height, round and that type is for that block have more than two thirds of the weight. So all these certificates are for one block, and if nobody contradicts himself, which block gets one, if any, does not depend on the order in which the votes come, on iteration orders, on what else differs between the runs, or on the votes of others than validators. If all the votes are for the height and round, the certificate is broadcast once only. The same holds whatever else the node takes up between the votes (proposals, chokes, outcomes of checks, timeouts, certificates of other slots) and with the node's own votes counted in, as long as it stays at its height and round and no certificate of the slot is handed to it.", "quantifier": "all validator lists with total weight below 2^32 (above that the claim is false, C14; that no certificate lacks two thirds holds for all), all states with nothing collected at the slot, all finite sequences of votes and all their permutations, all iteration orders and outcomes of callbacks", "why_tests_cant": "The order of the votes is the network's; the number of orders is exponential in the number of validators and votes of other rounds, other blocks and strangers mix in. A test tries one order.", "anchors": ["src/state/process.rs: handle_signed_vote, counting_vote, generate_qc", "src/state/collection.rs: VoteCollector::insert_vote, get_vote_map, get_votes, set_qc"]}
{"id": "C78", "title": "A round is left exactly when enough chokes have come, whatever their order", "statement": "To a node that keeps no chokes of its round or a later one, verified chokes are handed one after the other, of whatever senders, heights and rounds (those of a later round of its height bring a certificate and are left out). If signatures can be aggregated, it orders its voting logic to leave its round for the next one exactly if more than two thirds of the number of validators have sent a choke of its height and round, each sender counted once; it gives no other order to leave a round. So whether the round is left does not depend on the order in which the chokes come, on repetitions, or on chokes of other heights and rounds among them. The same holds whatever else the node takes up meanwhile and with its own chokes counted in, as long as it stays at its height and round, the chokes it is told to send are sent, and no choke of a later round of the height comes.", "quantifier": "all reachable states of a running validator, all validator lists, all finite sequences of chokes without a later round of the height and all their rearrangements and repetitions, all iteration orders and outcomes of callbacks", "why_tests_cant": "The order of the chokes is the network's; the number of orders is exponential in the number of validators and stale chokes, repetitions and chokes of other heights mix in. A test tries one order.", "anchors": ["src/state/process.rs: handle_signed_choke, check_choke_above_threshold", "src/state/collection.rs: ChokeCollector::insert, max_round_above_threshold, get_chokes, set_qc"]}
