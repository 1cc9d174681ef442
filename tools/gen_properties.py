#!/usr/bin/env python3
# Generates /verif/properties.jsonl
import json
P=[]
def p(title, statement, quantifier, why, anchors):
    P.append(dict(id="C%02d"%(len(P)+1), title=title, statement=statement, quantifier=quantifier, why_tests_cant=why, anchors=anchors))

SM="src/smr/state_machine.rs"; PR="src/state/process.rs"; CO="src/state/collection.rs"; AU="src/utils/auth_manage.rs"; PA="src/state/parallel.rs"; CD="src/codec.rs"; TI="src/timer.rs"; TY="src/types.rs"

# --- voting state machine
p("Consensus position never goes backwards",
  "While a node runs, the (height, round, step) position from which it votes is lexicographically non-decreasing: no message, quorum certificate, choke or timeout ever moves a node back to an earlier height, an earlier round of the same height, or an earlier step of the same round.",
  "every state of the voting state machine, every trigger other than a WAL restore, and by induction every trigger history",
  "the set of trigger interleavings (stale timers, late QCs, chokes, statuses) is unbounded; a unit test drives one of them",
  [SM+": StateMachine::handle_*", SM+": goto_next_round, goto_new_height"])
p("At most one prevote and one precommit per height and round",
  "For every history of inputs (without a restart in the middle) a node decides on at most one prevote and at most one precommit for each (height, round).",
  "every finite history of triggers starting from any state machine state",
  "double voting can only be excluded by an invariant over all histories; a test observes one history",
  [SM+": handle_proposal, handle_prevote", "src/smr/smr_types.rs: SMREvent"])
p("Lock discipline",
  "After a node has seen a prevote quorum for a block (is locked on it), every prevote it casts at that height is for that block until the lock is released, and the lock is released or replaced only by (a) a proposal that carries a proof of lock change for a strictly higher round, (b) a prevote quorum of the current or a later round, or (c) moving to a new height. Timeouts and chokes never release or change a lock.",
  "every state machine state satisfying the (proved, inductive) state invariant, every trigger, every history",
  "the interesting case is a lock taken many rounds earlier followed by an arbitrary interleaving of timeouts, chokes and proposals",
  [SM+": handle_proposal, handle_prevote, update_polc, remove_polc"])
p("A precommit for a block is justified by a prevote quorum",
  "A node precommits a non-empty block hash only in direct response to a prevote quorum certificate for that same hash at its height, whose round is the precommit's round or the round immediately before; in the latter case the node has skipped into the round and casts no prevote in it. Timeouts only ever produce empty precommits.",
  "every trigger history",
  "requires relating each emitted vote to its cause over all histories",
  [SM+": handle_prevote"])
p("A block is committed only on a precommit quorum",
  "The state machine orders a commit of a hash only when handed, by the state module and never by the timer, a precommit quorum certificate with that non-empty hash for the current height.",
  "every state and trigger", "must hold for all triggers, including stale and timer ones",
  [SM+": handle_precommit", PR+": handle_commit"])
p("Stale inputs are inert",
  "A proposal, quorum certificate, choke certificate or timeout that belongs to another height, a proposal or timeout that belongs to another round, and a prevote quorum or empty precommit quorum of an earlier round leave the voting state machine unchanged and produce no vote, commit or round change.",
  "every state machine state and every such trigger", "quantifies over all stale inputs in all states",
  [SM+": handle_proposal, handle_prevote, handle_precommit, handle_brake_timeout, handle_continue_round", TI+": Timer::trigger"])
p("A height is committed at most once",
  "Between starts of a node, commit() is invoked at most once for each height as long as it succeeds with a status for a later height, and the heights passed to successive successful commit() calls strictly increase.",
  "every schedule of messages, events and timeouts of one node",
  "the second commit needs a QC or choke that arrives between the first commit order and its execution",
  [PR+": handle_commit, goto_new_height", SM+": handle_precommit, handle_continue_round"])
# --- quorums and authority
p("Vote weight threshold is exactly two thirds",
  "A voter bitmap is above threshold if and only if three times the summed vote weight of the validators it selects exceeds twice the total vote weight of the authority list.",
  "every authority list with distinct addresses and every bitmap, of any length",
  "boundary cases (exactly 2/3, short bitmap, padding bits, extra bytes) for every weight distribution",
  [AU+": is_above_threshold, update"])
p("Quorum intersection",
  "Any two sets of validators each above threshold share validators of more than one third of the total weight; hence if Byzantine validators hold at most one third, two quorums share an honest validator.",
  "every authority list, every pair of quorums", "a combinatorial statement over all weightings",
  [AU+": is_above_threshold"])
p("Aggregated votes name exactly their voters",
  "The bitmap in a quorum certificate built by a relayer decodes, through extract_voters / get_voters on the same authority list in any order, to exactly the validators whose votes were aggregated, in the same order as the aggregated signatures, whatever the number of validators.",
  "every authority list, every set of collected votes", "depends on bit packing, padding and sorting for every size",
  [PR+": generate_qc", AU+": extract_voters, get_voters", "bit-vec from_bytes/to_bytes"])
p("Authority list order is irrelevant",
  "Nodes that are given the same validators in different orders agree on weights, thresholds, bitmap meaning and on the leader of every height and round.",
  "every permutation of every authority list with distinct addresses", "all permutations",
  [AU+": update, extract_voters, get_leader", TY+": impl Ord for Node"])
p("Vote counting elects at most one block, independent of map order",
  "For a given height, round and vote type at most one block hash can reach the threshold in a node's vote pool, so the quorum certificate a relayer builds does not depend on hash map iteration order, and the elected hash really has more than two thirds of the weight.",
  "every vote collector reachable by any sequence of insertions, every iteration order",
  "hash map iteration order is random per process",
  [PR+": counting_vote", CO+": Votes, get_vote_map"])
p("First vote wins and each validator is counted once",
  "Over any sequence of received votes, the vote pool of a (height, round, type) attributes to each validator exactly its first vote of that height, round and type; later duplicates or conflicting votes change nothing, and votes of other heights, rounds or types never contribute.",
  "every sequence of vote insertions and QC insertions", "refinement of the nested maps to an abstract first-writer-wins map for all operation sequences",
  [CO+": VoteCollector, VoteRoundCollector, RoundCollector, Votes"])
p("Vote weights are summed without wrap-around",
  "A block whose voters hold more than two thirds of the total weight is always recognised when counting votes, and one whose voters do not is never recognised, for all u32 weights.",
  "every authority list with arbitrary u32 weights", "only fails for weight sums above 2^32",
  [PR+": counting_vote (acc: u32)", AU+": get_vote_weight_sum"])
p("Public leader query agrees with the node",
  "get_leader(height, round, list) returns the address that a running node with that authority list accepts as proposer of (height, round).",
  "every height, round and authority list, in both leader modes", "two independent implementations must agree on all inputs",
  [AU+": get_leader, AuthorityManage::get_proposer"])
p("Every validator leads within one cycle of rounds",
  "With the default rotation, at any height every n consecutive rounds give each of the n validators the lead exactly once.",
  "every height, starting round and list size n", "for all n",
  [AU+": rotation_leader_index"])
p("Leadership rotates over heights",
  "With the default rotation, over any n consecutive heights each of the n validators leads round 0 exactly once.",
  "every starting height and list size n", "number-theoretic (the prime step must be coprime to n) for all n",
  [AU+": rotation_leader_index"])
p("Weighted random leader is total and proportional",
  "With the random_leader feature and a positive weight sum, the chosen index is always in range, a zero-weight validator is never chosen, and the number of accepted 64-bit random digits that select validator i is exactly proportional to its propose weight.",
  "every weight vector, every random digit", "counting over the full 2^64 digit space",
  ["src/utils/rand_proposer.rs: get_random_proposer_index"])
# --- evidence verification
p("Only quorum certificates above threshold are acted on",
  "An aggregated vote received from the network is acted on only if the validators in its bitmap hold more than two thirds of the weight and its aggregated signature verifies for exactly those validators.",
  "every aggregated vote and authority list", "adversarial inputs",
  [PA+": verify_qc, get_voters", PR+": handle_aggregated_vote"])
p("Evidence carried inside chokes and proposals is verified",
  "A quorum certificate embedded in a choke message, a choke certificate, and the proof of lock change embedded in a proposal have the same effect only if they would be accepted on their own: valid signature, above threshold, issued by current validators and, for a proposal, about the proposed block and the claimed lock round.",
  "every signed choke and every signed proposal", "adversarial inputs",
  [PR+": handle_signed_choke, handle_aggregated_choke, handle_signed_proposal", PA+": parallel_verify", CO+": ChokeCollector"])
p("No message is processed unauthenticated",
  "Every proposal, vote, aggregated vote or choke that is processed for the node's current height has had its signature checked against the current authority list.",
  "every schedule of message arrival, verification and height changes", "the violating schedule is a race between message reception and a height change",
  [PR+": run, handle_msg, goto_new_height", PA+": parallel_verify"])
# --- codec
p("Wire and WAL encodings round-trip",
  "For every message, vote, certificate, choke, commit, proof, node and WAL record, decoding the RLP encoding gives back the same value.",
  "every value with u64/u32-range integers and byte strings of any length below 2^64, for every content codec that round-trips",
  "all values, including length boundaries 0/1/55/56/2^k",
  [CD, "src/wal/wal_type.rs"])
p("Status encoding round-trips",
  "Decoding the RLP encoding of a rich status gives back the same status, including optional interval and timer configuration.",
  "every Status value", "sentinel values inside an option",
  [CD+": impl Encodable/Decodable for Status"])
p("Signed bytes determine the message and its kind",
  "Two different votes, or two different proposals, never have the same signing bytes, and the signing bytes of a vote, of a proposal and of a choke are always different, so a signature can not be replayed for another message or message kind; a choke signature binds all fields of the choke.",
  "every pair of messages", "injectivity over all pairs",
  [CD, PR+": sign_vote, sign_proposal, handle_brake", PA+": parallel_verify", TY+": HashChoke"])
p("Decoding never panics",
  "Decoding arbitrary bytes as any message or WAL type returns a value or an error and never panics.",
  "every byte string", "all byte strings",
  [CD+": Decodable for UpdateFrom, WalInfo", "src/smr/smr_types.rs: From<u8> for Step"])
# --- timer
p("Timeouts grow with the round and are capped",
  "The timeout armed for a propose, prevote or precommit step in round r is the configured ratio of the interval times 2^min(r,5), is monotone in the round, and a brake timeout is never scaled.",
  "every configuration, interval and round", "all rounds, including u64 -> u32 truncation",
  [TI+": set_timer", "src/utils/timer_config.rs"])
p("A live timer always backs the current step",
  "Whenever a node is in the propose, prevote, precommit or brake step, a timer for exactly its current height, round and step is armed or its expiry is still to be processed, so the node can not wait forever; and that expiry is not filtered out.",
  "every schedule of triggers and timer expiries", "all interleavings of timer and state machine",
  [TI, SM])
p("Outdated timeouts are dropped",
  "A timer that was armed for an earlier height never reaches the state machine once the timer has seen the new height, and any timeout that does reach it names the height and round for which it was armed and carries no hash and no lock.",
  "every event and timer state", "all interleavings", [TI+": trigger, set_timer"])
# --- node behaviour
p("Write-ahead: nothing is voted before it is logged",
  "Whenever a vote or choke leaves the node (broadcast, transmitted or put in the own pool) a WAL record with the same height, round and the corresponding step has just been saved successfully; if saving fails nothing leaves the node.",
  "every state, every event and every outcome of the storage and of the network calls", "all crash points and storage failures",
  [PR+": handle_vote_event, handle_brake, save_wal_with_lock_round"])
p("Restart resumes exactly where the WAL says",
  "After a restart with a WAL record the node resumes at the recorded height, round, step and lock, and never again votes in a step of that round that the record marks as done; a record at the commit step re-issues the same commit (same content, same proof).",
  "every WAL record and every continuation after restart", "all crash points",
  [PR+": start_with_wal, handle_commit", SM+": handle_wal", "src/wal/wal_type.rs"])
p("A correct node never equivocates",
  "Over its whole life, including crashes and restarts at any point, a node never releases two different votes for the same height, round and vote type.",
  "every schedule of messages, events, timeouts, statuses and crashes", "schedules and crash points are unbounded",
  [PR+": handle_vote_event, goto_new_height", SM])
p("Committed data is consistent with its proof",
  "Each commit() call is given the node's height, a proof whose height, round, block hash and signature are those of a precommit quorum certificate held for that hash, and the block content stored under that hash; the commit is logged before commit() is invoked.",
  "every state and every commit event", "all states", [PR+": handle_commit"])
p("Committed content has passed the application's check",
  "The content passed to commit() is content for which the application's check_block succeeded at this height (with that hash), or content this node obtained from get_block.",
  "every schedule and every Byzantine proposer", "needs a Byzantine proposer and a particular order",
  [PR+": handle_signed_proposal, handle_resp, handle_commit, check_block"])
p("No quorum certificate is acted on before the block is checked",
  "The state module hands a quorum certificate for a non-empty hash to the voting state machine only after the application reported success for that hash; therefore precommits and commits of a block follow its check.",
  "every handler, every state, every message", "all interleavings of check completion and QC arrival",
  [PR+": handle_signed_vote, handle_aggregated_vote, vote_process, handle_resp, try_get_full_txs"])
p("Nodes outside the authority list are silent",
  "A node whose address is not in the current authority list signs nothing, sends nothing, logs nothing and commits nothing; it only follows rich statuses.",
  "every message and event", "all inputs", [PR+": run, handle_msg, goto_new_height, start_with_wal"])
p("Caching of future messages is bounded to a window",
  "Proposals and votes are stored only for heights from the current one up to five ahead and rounds up to ten ahead; anything else is ignored; messages of lower heights or lower rounds are ignored.",
  "every message in every state", "all heights and rounds including boundaries",
  [PR+": filter_message, filter_signed_proposal, handle_aggregated_vote"])
p("Only the designated proposer's first proposal counts",
  "A proposal is stored or acted on only if its proposer is the leader of its height and round in the current authority list; for each (height, round) at most one proposal is kept, and a conflicting second one is refused.",
  "every sequence of proposals", "all sequences", [PR+": handle_signed_proposal, verify_proposer", CO+": ProposalCollector"])
p("Rich status moves the node forward only",
  "A rich status for a height not above the current one is ignored; otherwise the node adopts exactly its height, round 0, its authority list and interval, drops state older than the previous height, and re-verifies everything cached for the new height before using it.",
  "every status in every state", "all states", [PR+": goto_new_height", CO+": flush"])
p("Collectors keep exactly what is not outdated",
  "flush(till) removes exactly the entries of heights below till; get_height_* removes and returns exactly the entries of that height.",
  "every collector content and height", "all contents", [CO+": flush, get_height_proposals, get_height_votes"])
p("View changes are reported exactly once with the right data",
  "Each move to a non-zero round reports exactly one view change carrying the node's height, the round left, and a reason consistent with how the node left it; moving to round 0 reports none.",
  "every new-round event in every state", "all states", [PR+": handle_new_round, view_change_reason"])
p("Brake: two thirds of chokes always unblock a round",
  "As soon as a node holds chokes of a round not below its own from more than two thirds of the number of validators it orders the move to the next round, aggregates exactly those chokes, and the highest such round wins; below that it never moves on account of chokes.",
  "every choke collector content", "all contents", [PR+": check_choke_above_threshold, handle_brake, handle_signed_choke", CO+": max_round_above_threshold"])
p("Stop shuts the node down cleanly",
  "Sending OverlordMsg::Stop through the handler makes run() return without processing further messages and without panicking.",
  "every state of the node", "the handler path is only exercised in integration tests, which can not tell a panic of the task from a shutdown",
  [PR+": run, handle_msg", TY+": OverlordMsg::get_height", SM+": poll_next"])
p("Agreement",
  "If validators with at most one third of the vote weight are Byzantine, no two correct nodes ever pass different blocks to commit() for the same height.",
  "every number of validators and weights, every Byzantine behaviour, every network schedule, every run length",
  "the core safety claim; quantifies over all executions of a distributed system",
  [SM, PR, CO, AU, PA])
p("Agreement survives crashes",
  "Agreement also holds when correct nodes crash at arbitrary points and restart from their WAL.",
  "as for agreement, plus every crash point and any number of restarts", "all crash points in all executions",
  [SM+": handle_wal", PR+": save_wal*, start_with_wal", "src/wal/wal_type.rs"])
p("Good-case progress",
  "In a round with a correct leader in which proposal, votes, certificates and block checks are delivered before the timeouts, every correct unlocked (or suitably locked) node commits the leader's block in that round.",
  "every height, round, block and validator set", "for all validator sets and starting states",
  [SM, PR])
p("Restart never goes behind the starting height",
  "A node started with run(init_height, ...) never takes part in consensus for a height below init_height.",
  "every WAL content and init_height", "WAL content and init height vary independently",
  [PR+": start_with_wal", "src/overlord.rs: run"])
p("Hex form of byte fields round-trips",
  "Serialising a byte string field to hex and back gives the same bytes, and lists of byte strings keep their order and length.",
  "every byte string", "all byte strings", ["src/serde_hex.rs", "src/serde_multi_hex.rs"])
p("No input panics or ends a running node",
  "As long as the application's contents always encode, the validator lists it gives (at start, in commit() and in statuses) are usable for choosing a leader, nobody sends Stop and the WAL holds no impossible tag, a started node goes on running: no sequence of messages (genuine or forged, for any height and round, in any order), timeouts, block check results, storage, crypto or application failures panics or ends its main task, its voting task or its timer, and every start succeeds.",
  "every history of inputs, environment answers, crashes and restarts, every validator set",
  "a remote panic needs just one bad input sequence among all; tests send only well-formed traffic",
  [PR, SM, CO, AU, "src/timer.rs"])
p("Every live input takes effect",
  "A node's voting logic acts at once on every input that is not out of date: a fitting proposal or the propose timeout is answered by a prevote, a prevote quorum of its round (or a later one) by a precommit for the same block and a lock on it, the prevote timeout by an empty precommit, a precommit quorum for a block by its commit, an empty one by the next round, the precommit and brake timeouts by a choke, a choke quorum by the ordered round, a higher status by round 0 of its height. It reacts to nothing else, and once it has handled a prevote quorum or a choke quorum of a round it is in that round or later ever after.",
  "every reachable state of the voting logic, every input",
  "a single ignored input in one state among all can block a height for ever; tests try one path",
  [SM+": handle_proposal, handle_prevote, handle_precommit, handle_continue_round, handle_new_height, handle_brake_timeout"])
p("No unchecked block is precommitted or committed",
  "Whatever arrives and however a node is crashed and restarted: before a precommit for a block leaves the node, and before a running node passes a block to commit(), its own application's check_block has succeeded for that block hash since the node's last start. If hashes are unambiguous, that check was of this very block at this height.",
  "every history of messages, failures, crashes and restarts of a node",
  "the answer of check_block arrives asynchronously, before or after the proposal's certificates, possibly for an abandoned round or an earlier life of the node",
  [PR+": check_block, handle_resp, try_get_full_txs, handle_aggregated_vote, handle_signed_vote", SM+": handle_prevote, handle_precommit"])
p("A committed block was validated by correct validators",
  "If validators with at most one third of the vote weight are Byzantine, then whenever a correct node passes a block to commit(), correct validators with more than a third of the weight have precommitted exactly this block and their own applications' check_block has succeeded for it.",
  "every number of validators and weights, every Byzantine behaviour, every schedule with crashes and restarts",
  "external validity quantifies over all executions of the network",
  [SM, PR, CO, AU])
p("Correct nodes send only what is genuine",
  "What a correct node sends is backed by votes that were really cast: its votes are in its own name, every certificate it broadcasts, the lock certificate in its proposals and the certificate that justifies its chokes each stand for more than two thirds of the weight of its height, counting votes released by correct validators and whatever faulty ones claim.",
  "every history of a network: messages of faulty validators, schedules, crashes, restarts",
  "a certificate travels through stores, locks, WAL records and chokes before it is sent again; all paths matter",
  [PR+": try_get_vote, handle_new_round, handle_brake, set_update_from, save_wal_with_lock_round", CO])
p("Orders of the voting logic are carried out",
  "If faulty validators hold at most a third of the weight, block hashes are unambiguous and certificates are genuine, then no order that a correct node's voting logic gives for the node's current height is lost for lack of a stored lock, certificate or block. If saving and signing work: an ordered vote is saved and released in the node's own name to the leader of the round; an ordered choke is broadcast; an ordered block is passed to commit() with its content and a precommit certificate that stands for more than two thirds of the weight; an ordered round is entered and saved with the lock, and a leader proposes in it: its locked block together with the prevote certificate it is locked on, otherwise the block its application gives it.",
  "every history of a network: messages of faulty validators, schedules, crashes, restarts; every next order of a correct node",
  "the stores are filled, flushed and overwritten by messages of all rounds in any order, and rebuilt from records after a crash; one missing entry silences the node for the round",
  [PR+": handle_new_round, handle_vote, handle_commit, handle_brake, save_wal_with_lock_round, start_with_wal", SM+": handle_proposal, handle_prevote, handle_precommit", CO])
p("A round does not last for ever",
  "If more than two thirds of the validators of a height stay up, their tasks go on, their storage and signatures work and the chokes they broadcast arrive among them, then they do not stand still: some of them asks its application to commit a block, reaches a later height, or enters a later round, whatever other messages are lost, delayed or made up by faulty validators (at most a third of the weight).",
  "every infinite history of a network: message losses and delays, messages of faulty validators, schedules, crashes and restarts before and of other nodes",
  "liveness: it ranges over infinite histories, and any interleaving of timeouts, rebroadcasts, verifications and block checks could starve the one step that is needed",
  [SM+": handle_brake_timeout, handle_choke_qc, handle_prevote, handle_precommit", PR+": handle_brake, handle_signed_choke, check_choke_above_threshold", "src/timer.rs: Timer"])
p("Chokes explain their round",
  "A choke (request to give up a round) that a correct node broadcasts for round r >= 1 carries the reason for which the node is in that round: a prevote certificate of round r-1 of the same height, a precommit certificate of round r-1 of the same height for no block, or a choke certificate of round r-1 naming more than two thirds of the validators. The vote certificates are backed by more than two thirds of the weight. The same holds of every WAL record a node saves, so also after a restart.",
  "every history of a network: messages of faulty validators, schedules, crashes, restarts; every choke and record of a correct node",
  "the reason is looked up in stores that any message may change between the order to enter a round and its execution, it is saved, reloaded and sent again much later",
  [PR+": handle_new_round, set_update_from, handle_brake, start_with_wal, check_choke_above_threshold, handle_signed_choke", SM+": handle_prevote, handle_precommit, handle_choke_qc"])
p("Verified messages are genuine",
  "If nobody can forge signatures of correct validators, then a vote in the name of a correct validator that a node counts was really cast by that validator, and a certificate a node acts on, received as such or as lock evidence in a proposal, stands for votes really cast by every correct validator its bitmap names; if the bitmap is above the threshold, it is backed by more than two thirds of the weight (faulty validators counted as willing). This holds for messages received after the node reached their height.",
  "every history of a network: messages of faulty validators, schedules, crashes, restarts; every signature scheme that is unforgeable",
  "verification runs in separate tasks with a copy of the validator list, its result is used later, when the node may have changed height, list or have been restarted",
  ["src/state/parallel.rs: parallel_verify, verify_qc, get_voters", PR+": run, handle_msg, goto_new_height", AU+": get_voters"])
p("Messages handed to the handler are processed in order, exactly once",
  "On one Overlord object: messages for which send_msg returned Ok are taken up by the node at most once, in the order of the calls, none is invented, and none is lost while run() has not ended (also those sent before run()); if the loop goes on, each is eventually taken up. send_msg never blocks, returns Ok until run() has ended and Err afterwards; get_handler always works; run() goes through once, a second call panics and changes nothing for the running one.",
  "every sequence of calls on the object and its handlers, interleaved in any way with the steps of the node's tasks, with crashes and dropped futures; infinite histories for the last clause",
  "the interleavings of callers with the running tasks are unbounded; a test sees a few",
  ["src/overlord.rs: Overlord::new, get_handler, run, OverlordHandler::send_msg", PR+": run"])
p("When run() ends, so do the tasks it started",
  "When run() ends (its future is dropped, or it panics), the tasks it has spawned (voting state machine, timer, timeouts, verifications, block checks) stop: they do only finitely many further steps and then no task is left.",
  "every history of a node before run() ends, every order of the remaining steps",
  "depends on which channel ends each task holds, and on what is pending at that moment",
  ["src/overlord.rs: run", "src/smr/mod.rs: SMR::run", SM+": poll_next, throw_event", "src/timer.rs: poll_next, run"])
p("Committed blocks were proposed by a leader (validity)",
  "Every block that a correct node commits at a height - like every block it proposes or keeps as its lock - was made for this height by the application of a correct node that was asked for it as leader of one of the rounds, or came in a proposal for this height by a faulty leader of the proposal's round. No certificate, vote or choke, however forged, makes a correct node commit a block that no leader proposed; if all possible leaders of a height are correct, the block is one their applications made.",
  "all networks of any number of nodes, correct or faulty, all schedules, crashes and restarts, all messages",
  "the claim is about every interleaving and every forged message a faulty node can send; tests try a few",
  [PR + ":handle_new_round", PR + ":handle_signed_proposal", PR + ":handle_commit", PR + ":verify_proposer", PR + ":goto_new_height", PR + ":load_wal"])
p("No amplification",
  "Whatever a node takes up - a message from the network, verified or not, a decision of its own voting state machine, an answer of the application, its start - it does a bounded and small amount of work for it: it sends at most one message, hands over at most one block, asks for at most one block and one check, writes at most two log records. Of the messages from others only votes make it send anything at once, and messages that fail verification never do. Over a whole life with crashes and restarts, the messages it has sent are at most the decisions, verified messages and starts it has taken up.",
  "all states, inputs, answers of application and crypto library; all lives of a node with crashes and restarts",
  "a single state in which a message causes a second broadcast would be enough for a storm between nodes; tests visit few states",
  [PR + ":run", PR + ":handle_event", PR + ":handle_msg", PR + ":handle_vote_event", PR + ":vote_process", PR + ":handle_signed_vote", PR + ":start_with_wal"])
p("A certificate is broadcast once",
  "Between two restarts a node broadcasts the certificate of a round and type once: votes that arrive when the certificate exists have no effect at all.",
  "all states, all sequences of inputs and answers between two restarts",
  "the repetition depends on which votes arrive after the certificate and in which order",
  [PR + ":handle_signed_vote", PR + ":vote_process", PR + ":counting_vote", CO + ":get_qc_by_id"])
p("A commit's proof convinces outsiders, and no two accepted proofs of a height conflict",
  "The proof in every Commit that a node passes to commit() is accepted by somebody who follows no messages and has only the validator list of the height and the verification half of the signature scheme: extract_voters names the signers, they have more than two thirds of the weight, and the aggregated signature is theirs, on the precommit for the committed hash. The same holds for every certificate a node broadcasts (alone, as lock evidence, as the reason in a choke) or saves. With at most a third of the weight faulty and unforgeable signatures, no two acceptable proofs of one height are for different blocks, and an acceptable proof is for the block that correct nodes commit.",
  "every validator list with distinct addresses and summable weights, every life of a node with crashes and restarts, every signature scheme, every proof an adversary can show",
  "ranges over all executions and all adversaries; it connects vote counting, bitmap encoding, aggregation, the verification path and agreement across nodes",
  [PR + ":handle_commit", PR + ":generate_qc", PR + ":counting_vote", "src/utils/auth_manage.rs:extract_voters", PA + ":verify_qc"])
p("The documented self-checks of the voting logic always hold",
  "The voting state machine documents conditions it checks before each message is processed (the code of the check is commented out): a lock is on a block; the locked block is the current proposal; in round 0 there is no lock before the precommit step; in the propose step the current proposal is empty unless there is a lock; in the precommit step there is a current proposal exactly if there is a lock. Each of them holds before and after every trigger, fresh or resumed from a stored record, so that the check would never fail; where one does not hold, it has no effect on anything the machine orders.",
  "every list of triggers (certificates, proposals, timeouts, chokes, new heights) after a fresh start or a start from any sound record",
  "a state invariant of the machine, over all lists of triggers",
  [SM+": check, update_polc, handle_proposal, handle_prevote, goto_next_round, handle_wal"])
p("Messages that arrive before their height are not lost",
  "A vote, proposal or certificate for one of the next heights that reaches a validator which is still at a lower height is not lost: when the node gets to that height it verifies the message against the validator list of that height and handles it, whatever other messages, timeouts and heights came in between.",
  "every state of the node, every message for a height and round inside the window, every sequence of inputs and answers of application, storage and crypto library until the node reaches the height",
  "the cache is filled, flushed and emptied by every height change and shared with all other messages; the claim is about all interleavings",
  [PR + ":handle_signed_vote", PR + ":filter_signed_proposal", PR + ":handle_aggregated_vote", PR + ":goto_new_height", PR + ":re_check_votes", PR + ":re_check_proposals", CO + ":flush", CO + ":get_height_votes", CO + ":get_height_proposals"])
p("The chain keeps growing",
  "Let the live nodes have more than two thirds of the weight at every height, let the leader of the first round of each of the next K heights be live, and let the live nodes be at the beginning of the first of these heights. As long as no timeout fires, no live node crashes and the application and storage do their work, then, for any interleaving of the nodes (which may be at different heights), any order, delay and repetition of messages: when the messages of the first k+1 heights have arrived and been taken up, every live node has committed the block of each of these heights in the first round; and at every moment a node has handed over exactly the blocks of the heights below its own, in order, once each.",
  "all numbers of heights, validator lists (changing from height to height), leaders and blocks, all schedules of any number of nodes, all messages of faulty validators that do no harm",
  "a statement about unboundedly many heights and all interleavings of nodes at different heights; tests run a few heights in one order",
  [PR + ":handle_commit", PR + ":goto_new_height", PR + ":handle_new_round", PR + ":handle_signed_proposal", PR + ":handle_signed_vote", PR + ":handle_aggregated_vote", SM + ":goto_new_height", SM + ":trigger"])
p("What a node keeps in memory is bounded",
  "Whatever peers send, in whatever amount, what a running node keeps is bounded by a function of the number of validators and of the round it is in: votes and proposals (one per height, round, type and validator, resp. per height and round, for at most seven heights in a row and at most ten rounds ahead, votes only of validators), and likewise certificates, blocks, chokes and the results of block checks.",
  "all histories of messages, events and application answers from the start of a node, all numbers of messages, all validator lists",
  "a bound for all message floods; a test sends finitely many messages and cannot show that no flood grows the stores",
  [PR + ":filter_message", PR + ":handle_signed_vote", PR + ":handle_signed_proposal", PR + ":handle_aggregated_vote", PR + ":handle_signed_choke", PR + ":goto_new_height", CO + ":VoteCollector", CO + ":ProposalCollector", CO + ":ChokeCollector"])
p("Blocks keep the block interval, and no one waits longer than that",
  "A validator that has committed a block and leads the first round of the next height starts that height no earlier than the block interval in force (the last one a status brought, at first the one passed to run()) after it started the height it leaves. It pauses only then, at most once per commit and at most one interval; validators that do not lead the next height, and heights that start because of a status from the application, do not wait. The pause ends one interval after the height it leaves was started, and nobody outside can prolong it. Timing has no influence on anything else a node does.",
  "all histories of inputs with all durations of the awaited calls, of the waits for input and of the scheduler",
  "durations and interleavings range over everything; tests run with a handful of timings on one machine",
  [PR + ":handle_commit", PR + ":goto_new_height", PR + ":handle_signed_proposal", PR + ":next_proposer", PR + ":State::new", TY + ":Status"])
p("The random order of hash tables makes no difference",
  "Rust iterates its hash tables in an order that is random in every run. Two runs of a node that get the same inputs and the same answers of application, storage and cryptography nevertheless do the same: they send the same proposals, votes and certificates, commit the same blocks, ask for and check the same blocks, report the same view changes, write the same log records, broadcast the same chokes and are in the same state after every input. Only the order of the voters named inside a choke certificate, and the order in which checks of cached messages are started, may differ.",
  "all iteration orders (a different one for every table and every iteration), all histories of inputs and answers from the start of a node",
  "the order is random and changes from run to run; a test sees one of exponentially many and cannot compare two",
  [CO + ":VoteCollector::get_votes", CO + ":Votes::get_votes", CO + ":ProposalCollector::get_height_proposals", CO + ":VoteCollector::get_height_votes", CO + ":ChokeCollector::get_chokes", PR + ":counting_vote", PR + ":generate_qc", PR + ":check_choke_above_threshold", PR + ":re_check_proposals", PR + ":re_check_votes"])
p("Messages may arrive any number of times",
  "A network may repeat messages. If some messages (or answers of block checks) reach a node several times in a row instead of once, the node ends in the same state, and it sends the same votes, proposals and chokes, writes the same log records, asks for the same blocks, commits the same blocks and reports the same view changes, in the same order; and it does nothing else (certificate broadcasts, triggers of the voting logic, block checks) that it did not do without the repetitions.",
  "all histories of messages, answers, timer events and hash orders, all states to start from, any number of repetitions of any of the messages, all answers of application, storage and cryptography (the same for the copies of a message)",
  "every handler of every kind of message in every state must be idempotent; a test sends one message twice in one state",
  [PR + ":handle_signed_vote", PR + ":handle_signed_proposal", PR + ":handle_aggregated_vote", PR + ":handle_signed_choke", PR + ":handle_resp", PR + ":goto_new_height", CO + ":VoteCollector::insert_vote", CO + ":ProposalCollector::insert", CO + ":ChokeCollector::insert"])
p("A leader makes one proposal per round",
  "Over its whole life, crashes in the middle of any input and restarts included, a node sends at most one proposal for a given height and round, whatever blocks the application makes when it is asked; its proposals are for ever later heights and rounds, and the record that a restart finds is never before a proposal that was sent.",
  "Every schedule of messages, timers, application answers, crash points and restarts of a node; every pair of proposals it sends",
  "A leader asks the application for a block whenever it enters a round; whether it can enter the same round twice depends on the interleaving of pending orders, certificates and statuses and on what is on disk at each crash point.",
  [SM+"::StateMachine::handle_new_height", SM+"::StateMachine::handle_precommit", PR+"::State::handle_new_round", PR+"::State::start_with_wal", PR+"::State::goto_new_height"])
p("Conflicting messages prove who is faulty",
  "Nobody who follows the protocol can be framed, however many of the others are faulty: two valid signatures in one name on different votes for the same height, round and type, or on different proposals for the same height and round, exist only if that validator is faulty; if two certificates for different blocks and the same height, round and type are both acceptable to an outsider, the validators that both name have more than a third of the weight and every one of them is faulty.",
  "Every execution of a network with any set of faulty nodes; every pair of signed votes, certificates and signed proposals, wherever they come from",
  "Accountability (slashing) is about every message that ever leaves a correct node, over all schedules, crashes and restarts, against evidence that faulty nodes may assemble from anything they have seen.",
  [SM+"::StateMachine::handle_proposal", SM+"::StateMachine::handle_prevote", PR+"::State::handle_vote_event", PR+"::State::handle_new_round", PR+"::State::start_with_wal", "src/utils/auth_manage.rs::extract_voters"])
p("The application gets each height once and in order, and again only identically after a crash",
  "The heights for which a node calls the application's commit never go down over its whole life, restarts included. If the application always commits and answers with a later height, then of two calls the later one is for a later height, or it is the very same commit (height, content and proof), and such a repetition happens only across a restart: while the node is not restarted the heights rise strictly and are all above those handed over before.",
  "every life of one node: any messages, certificates (genuine or not), statuses, timeouts, orders and interleavings, crashes in the middle of any input (after any number of effects), any number of restarts at which the storage returns the record saved last",
  "A unit test hands over one block; a repeated or skipped-back height would need a particular crash point between the call and the next record, or a particular sequence of certificates for old heights.",
  [SM + ": handle_prevote, handle_precommit", PR + ": handle_commit, start_with_wal, goto_new_height, save_wal"])
p("All correct nodes apply one and the same sequence of blocks",
  "There is one chain, a block hash for every height, such that every commit that any correct node hands to its application at any time is that of the chain, and every node hands them over in the order of the heights. Two correct nodes that have been given blocks for the same heights up to K have been given the same sequence of blocks up to K (repetitions after a crash left out).",
  "every network of any size with at most a third of the weight at faulty validators, every schedule of all nodes with crashes in the middle of any input and restarts, every message faulty nodes may send, every height K",
  "The sequence an application sees depends on the whole history of the network; tests compare a few heights of nodes that run in one process and never crash between two effects.",
  [SM + ": StateMachine", PR + ": handle_commit, start_with_wal, goto_new_height", "src/overlord.rs: run"])
p("What a node records only goes forward, and a recorded commit is never overwritten by anything of its height",
  "Whatever a node writes to its storage over its whole life, restarts included, each record is for a place (height, round, step) at or after all earlier ones, and after the record of a commit the next record of that height, if any, is that of the same commit. So the record a restart finds stands for the furthest place the node ever recorded, and a running validator is never before a place it recorded.",
  "every life of one node: any messages, certificates, statuses, timeouts and interleavings, crashes in the middle of any input (after any number of effects), any number of restarts at which the storage returns the record saved last",
  "The storage keeps only the last record, so one record that goes back loses a lock or a decided block; whether one can be written depends on which timeouts and orders are still pending when a certificate arrives, and on where the node crashed before.",
  [PR + ": save_wal, handle_commit, handle_brake, goto_new_height, start_with_wal", SM + ": handle_brake_timeout, trigger", TI + ": Timer"])
p("No height is left out",
  "If the application always answers a commit with the status of the next height, the heights a node hands to the application over its whole life are h0, h0+1, h0+2 and so on, where h0 is the height it was first started with: none is left out and none comes out of order (a height can be handed over again after a crash). A running validator at height k has handed over all heights from h0 up to k, and so has a node whose storage holds a record of height k.",
  "every life of one node: any messages, certificates, timeouts and interleavings (but no status from outside that takes the node to a later height), crashes in the middle of any input, any number of restarts at which the storage returns the record saved last",
  "A gap would need a certificate of a later height, a queued trigger of another height, or a record saved before the commit it follows; which of these can meet depends on the interleaving of three state machines and on the crash point.",
  [PR + ": handle_commit, goto_new_height, start_with_wal, handle_aggregated_vote", SM + ": goto_new_height, trigger, process_events", TY + ": Status"])
p("What is over is over",
  "Messages about the past make no difference. A verified proposal, vote, choke or certificate of an earlier height, a proposal, vote or choke of an earlier round, a prevote certificate or an empty precommit certificate of an earlier round, and a status of a height that is not later are ignored without any trace in every state; they can be added to a history anywhere in any number, and the node ends in the same state and does the same. Messages about earlier heights that still wait inside a node (for their check or for their turn) make nothing possible and stop nothing: what the node can go on to do with them and without them is the same, over its whole further life. So for every life there is one with the same actions in which no message about an earlier height ever arrives.",
  "all states, messages, answers of application, storage and cryptography; all histories with messages about the past inserted anywhere; all lives of a node with crashes and restarts, any number of waiting messages (for 'stop nothing': usable validator lists as in C48)",
  "A late message meets collectors, caches, queues and running checks that the height change has just flushed or not yet flushed; whether anything of it survives depends on the state and on what is in flight, and comparing two whole lives is beyond any test.",
  [PR + ": filter_message, handle_signed_proposal, handle_signed_vote, handle_aggregated_vote, handle_signed_choke, goto_new_height, run", PA + ": parallel_verify"])
p("A certificate exactly when the votes suffice, whatever their order",
  "To a node that has nothing collected for its height and round, verified votes are handed one after the other, of whatever voters, heights, rounds and types. If signatures can be aggregated, it broadcasts a certificate of a type for a block exactly if the validators whose first vote for its height, round and that type is for that block have more than two thirds of the weight. So all these certificates are for one block, and if nobody contradicts himself, which block gets one, if any, does not depend on the order in which the votes come, on iteration orders, on what else differs between the runs, or on the votes of others than validators. If all the votes are for the height and round, the certificate is broadcast once only. The same holds whatever else the node takes up between the votes (proposals, chokes, outcomes of checks, timeouts, certificates of other slots) and with the node's own votes counted in, as long as it stays at its height and round and no certificate of the slot is handed to it.",
  "all validator lists with total weight below 2^32 (above that the claim is false, C14; that no certificate lacks two thirds holds for all), all states with nothing collected at the slot, all finite sequences of votes and all their permutations, all iteration orders and outcomes of callbacks",
  "The order of the votes is the network's; the number of orders is exponential in the number of validators and votes of other rounds, other blocks and strangers mix in. A test tries one order.",
  [PR + ": handle_signed_vote, counting_vote, generate_qc", CO + ": VoteCollector::insert_vote, get_vote_map, get_votes, set_qc"])
p("A round is left exactly when enough chokes have come, whatever their order",
  "To a node that keeps no chokes of its round or a later one, verified chokes are handed one after the other, of whatever senders, heights and rounds (those of a later round of its height bring a certificate and are left out). If signatures can be aggregated, it orders its voting logic to leave its round for the next one exactly if more than two thirds of the number of validators have sent a choke of its height and round, each sender counted once; it gives no other order to leave a round. So whether the round is left does not depend on the order in which the chokes come, on repetitions, or on chokes of other heights and rounds among them. The same holds whatever else the node takes up meanwhile and with its own chokes counted in, as long as it stays at its height and round, the chokes it is told to send are sent, and no choke of a later round of the height comes.",
  "all reachable states of a running validator, all validator lists, all finite sequences of chokes without a later round of the height and all their rearrangements and repetitions, all iteration orders and outcomes of callbacks",
  "The order of the chokes is the network's; the number of orders is exponential in the number of validators and stale chokes, repetitions and chokes of other heights mix in. A test tries one order.",
  [PR + ": handle_signed_choke, check_choke_above_threshold", CO + ": ChokeCollector::insert, max_round_above_threshold, get_chokes, set_qc"])
open("/verif/properties.jsonl","w").write("".join(json.dumps(x)+"\n" for x in P))
print(len(P))
