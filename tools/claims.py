s("C01", "partial", "Proved for every trigger list except a certificate for round 2^64-1 (the code wraps: C01_false_at_last_round is the machine-checked witness) and WAL triggers (which exist only at restart).")
s("C02", "partial", "Proved for every trigger list except a certificate for round 2^64-1 and WAL triggers (restarts are C31).")
s("C03", "proved", "")
s("C04", "partial", "C04_precommit_justified is full; the skip-prevote clause is proved under the in-range hypothesis.")
s("C05", "proved", "")
s("C06", "proved", "")
s("C07", "partial", "False for the voting state machine alone (witness); see State-level theorems.")
s("C08", "proved", "For lists of at most 2^30 validators with u32 weights (no u64 overflow possible).")
s("C09", "proved", "")
s("C10", "proved", "Bitmap construction of generate_qc, any list length and order.")
s("C11", "proved", "")
s("C12", "proved", "For any history of votes by validators and any iteration order of the hash maps.")
s("C13", "proved", "")
s("C14", "partial", "False for totals >= 2^32 (C14_false_for_large_weights: the u32 sum wraps); proved for totals < 2^32; the no-false-positive half is proved unrestricted.")
s("C15", "partial", "Proved in default mode for every input; in random_leader mode false for propose weight sums >= 2^32 (two witnesses), proved below.")
s("C16", "partial", "False where height*stride+round wraps at 2^64 (witness); proved elsewhere.")
s("C17", "partial", "Proved below the 2^64 wrap; uses Bertrand's postulate from Mathlib.")
s("C18", "proved", "The generator is an arbitrary digit list; proportionality is exact counting over all 2^64 digits.")
s("C39", "proved", "")
s("C26", "partial", "Proved for every schedule from rounds < 2^32, without u64 overflow of interval*ratio, for nodes started fresh or from a WAL record at the propose step; false at round 2^32 (u32 truncation) and after a restart at another step (C26_fails_after_restart: the timer's round stays 0).")
s("C27", "proved", "Invariant over all schedules of state machine, timer and expiries, and a liveness theorem for fair infinite schedules. Until Stop.")
s("C28", "proved", "")
s("C22", "proved", "Every wire and WAL type; bytes of the rlp crate modelled (trusted), contents with any faithful codec. Rich status is C23.")
s("C23", "partial", "False: Some(0) interval and Some(all-zero) timer config decode as None (C23_fails); C23_exact characterises exactly when it round-trips.")
s("C24", "partial", "Proved for votes, proposals and kinds; false for chokes: the justification is not signed (C24_choke_from_unsigned_fails).")
s("C25", "partial", "False: a signed choke with justification tag > 2 and a WAL record with step > 4 panic (C25_fails); all other decoders proved panic-free on every byte string, and those two cases are proved to be the only ones.")
s("C47", "proved", "The hex functions of crate hummer are modelled (trusted).")
s("C29", "proved", "Every input of the State loop, every environment answer.")
s("C32", "proved", "For every history of inputs (with any environment answers), including restarts.")
s("C34", "proved", "Success reports are the inputs of the resp queue (the code sends one only when check_block succeeded).")
s("C35", "partial", "False: when commit() returns a status that is not higher than the current height, the new list is installed without re-evaluating the node's membership (witness). Proved when commit() returns a higher status and WAL saves succeed.")
s("C36", "proved", "")
s("C37", "partial", "False: a refused second proposal still overwrites the content held for its hash (witness). Refusal and leader check are proved.")
s("C38", "partial", "False: a status that does not list the node is adopted without its list (witness). Everything else is proved.")
s("C40", "proved", "")
s("C42", "partial", "False: Stop from the handler panics the main task in every state (C42_stop_panics_counterexample).")
s("C46", "partial", "False: an old WAL record overrides init_height (witness); proved when the record is not behind.")
s("C19", "partial", "False: the result of the threshold test is dropped, so a certificate of one validator out of four is acted on and commits a block (witness). The signature half is proved.")
s("C20", "partial", "False: certificates inside chokes are not verified, choke certificates are only counted, lock evidence may be about another block and round (witness). What is verified is proved.")
s("C41", "partial", "The quorum and aggregation clauses are proved; 'never below' is false because a choke certificate carried by a choke is believed and outsiders' chokes count (witness).")
s("C07", "proved", "C07_commit_heights_increase: over every history of the State between starts. The voting state machine alone may order two commits for a height (C07_false_in_state_machine is a witness); the State's height check stops the second.")
s("C31", "partial", "Full statement is false: C31_false_with_stale_orders and C31_false_in_ordinary_runs are witnesses without any crash or Byzantine message (the second also without a status from outside). Proved over whole lives with arbitrary crashes and restarts when the State takes up orders only at the height they were given for (InSync), rounds below 2^64-1, and the storage returns the record saved last at each start.")
s("C30","partial","Proved for whole lives: no vote at or before the recorded position after a restart (rounds below 2^64-1, heights above 0); position, reason, lock, certificate and content restored; a commit record is always complete, precedes its commit, and a restart from it re-issues exactly that commit. Missing: a brake-step record whose re-broadcast fails never reaches the voting state machine (C30_brake_failure shows it).")
s("C21","partial","Full statement is false: C21_false_for_early_messages commits on a forged certificate that arrived one height early and was never checked. Proved for whole lives: every message that takes effect was verified in the view of its height, or arrived before its height was reached.")
s("C33","partial","Full statement is false: C33_false_for_ambiguous_hashes has two witnesses (a refused second proposal still replaces the content; a check of an earlier height counts later). Proved over whole lives, with crashes, restarts and arbitrary messages, when a hash fixes height and content, saving does not fail and starts load what was saved.")
s("C43","partial","Full statement is false: C43_false_with_self_unlock and C43_false_with_weak_certificates are full network schedules in which two correct nodes commit different blocks for one height. Proved for any number of nodes and weights, every schedule and every message of faulty nodes, if (KeepsLocks) no lock is removed by a certificate for the locked block itself, (GenuineInput) certificates acted upon have counted weight, (InSync) orders are taken up at the height they were given for.")
s("C44","partial","As C43, over whole lives with crashes at every effect and any number of restarts from the record saved last.")
s("C45","partial","Full statement is false: C45_weak_certificate_spoils_round is a full network schedule in which one validator of weight 1 in 9 stops a good round with a certificate it alone signed. Proved for every validator set, round, block, lock situation, schedule, and number of repeated, late or reordered messages, when faulty validators send votes (of any content), proposals (except in the name of the round's leader), chokes of the round (if they are at most two thirds by number) and outdated messages: every live node commits the block in that round once messages are delivered (C45_good_round_commits_partial), and no live node fails or leaves the round at any point (C45_nobody_leaves_partial).")
s("C48","proved","Whole node model (State, voting task, timer), every history. C48_empty_list_panics shows that the assumption on validator lists is needed; Stop is C42, impossible WAL tags C25. Spawned verification tasks are modelled as functions that cannot panic (parallel.rs has no unwrap).")
s("C49","proved","Reactions in every reachable state; the round-skipping clauses and the run-level catch-up exclude round 2^64-1 (finding: the counter wraps, C01_false_at_last_round).")
s("C50","proved","Over whole lives of a node with no assumption on messages, schedule or storage. A block that a starting node passes to commit() again from its record is the subject of C33. The identity of the checked content needs unambiguous hashes (C33_false_for_ambiguous_hashes).")
s("C51","partial","Full statement is false (C51_false_with_weak_certificates: a certificate signed by one validator suffices for a commit). Proved over all network schedules with crashes and restarts in which certificates that are acted upon have counted weight (GenuineSchedule); neither InSync nor KeepsLocks is needed.")
s("C52","partial","Proved for all schedules meeting GenuineSchedule, except for chokes of height 0 (a node that was never given a status).")
s("C53","partial","The full statement is false in round 0 after a start with an empty storage (C53_false_after_lost_wal: the vote goes to the empty address); C53_votes_partial leaves that case open, the other clauses are full. Assumes schedules meeting OrderSchedule (genuine certificates, unambiguous hashes, records loaded were saved, commit answers have a leader, no wrap of the round counter).")
s("C54","partial","Proved for live validators that stand in the same round (C54_round_ends_partial), over all infinite histories. For live validators in different rounds the statement is false: C54_false_rounds_apart is an infinite history of four correct validators, one of which crashes, in which every message between the other three arrives and they wait for each other for ever (finding 22). Assumes schedules meeting NetStep/OrderStep (as C53).")
s("C55","proved","All histories of networks under OrderSchedule (C53). The voters named in a choke certificate are counted, not that each of them signed: the code does not check that they are validators (C20).")
s("C54","partial","Proved over all infinite histories for live validators that stand in the same round (C54_round_ends_partial), and for live validators in different rounds unless one above the lowest round is there because of a prevote certificate (C54_rounds_apart_partial; C54_stragglers_catch_up_partial for two validators, no quorum needed). For the remaining case the statement is false: C54_false_rounds_apart is an infinite history of four correct validators, one of which crashes, in which every message between the other three arrives and they wait for each other for ever (finding 22). Assumes schedules meeting NetStep/OrderStep (as C53).")
s("C56","proved","All network schedules with crashes and restarts meeting GenuineSchedule so far. Messages received before their height was reached are excluded (C21_false_for_early_messages: they are not verified). Thresholds are not checked by the code (C19), so backing by two thirds is conditional on the bitmap.")
s("C44","partial","As C43, over whole lives with crashes at every effect and any number of restarts from the record saved last. C44_agreement_from_signatures_partial replaces the assumption of genuine messages by unforgeable signatures, no message taken up unverified (C21), and messages that do not exploit what the code leaves unchecked (C19, C20).")
s("C57","proved","All clauses, for one object and any earlier life of its node. C57_same_histories shows that the histories behind the channel are exactly the single-start histories of the node model all other theorems are about.")
s("C58","partial","The bounded number of steps is proved (C58_tasks_fall_asleep_partial); the rest is false: C58_tasks_never_end shows for every such history that the tasks of the voting state machine and of the timer stay for ever (each holds the sender the other one waits for).")
s("C59", "proved", "Assumes what the other network claims assume of the application (answers, working storage, lists) and that nobody can sign proposals for correct nodes; C59_origin_from_signatures derives the latter from the signature scheme for messages that do not arrive early (C21).")
s("C60","proved","All clauses, with the exact allowance per kind of input in Spec/Traffic.lean; examples use the allowances up.")
s("C61","partial","C61_once_partial: a second broadcast happens only for the node's own vote or for a vote of a later round. The full claim is false: C61_false_for_later_votes shows a node that repeats the broadcast for every copy of one later-round vote (finding 24).")
s("C62","partial","Every certificate a node sends, saves or commits convinces an outsider, and accepted proofs do not conflict; excluded: received certificates below the threshold / in chokes, which the code does not check (counterexample proved), early messages, and C44's conditions for the conflict part.")
s("C63","partial","All documented conditions except the fourth, which is false (C63_false_stale_proposal); C63_stale_proposal_harmless shows that its failure changes nothing. Records are assumed sound (the lock is on a block and not from the future); rounds below 2^64-1.")
s("C64","partial","For the first vote or proposal of its slot by a validator (leader) of the list the node has on arrival, and the last certificate of its slot; no restart in between (the caches are not stored), all saves succeed, node stays a validator. The full claim is false: forged early messages displace genuine ones, newcomers are refused (C64_forged_vote_displaces, C64_forged_proposal_displaces, C64_forged_certificate_displaces, C64_newcomer_refused).")
s("C65","partial","With C45's restriction on what faulty validators send. Messages of live nodes may arrive before the node has reached their height, up to four heights early and also across validator-list changes, with one exception without which the claim is false (C65_early_proposal_lost): a proposal may be early only if its proposer leads that height by the current list too. Validator lists, weights and leaders may change with each height; nodes may be at different heights.")
s("C66","partial","Votes and proposals are bounded (C66_votes_bounded_partial, C66_proposals_bounded_partial), given working storage. For the rest the claim is false: for every n, n blocks from one leader in one round, n certificates signed by one validator, n chokes of outsiders are all kept (C66_*_unbounded), and results of block checks are never dropped (C66_checks_kept).")
s("C67","partial","C67_leader_waits (lower bound), C67_pauses (who pauses and how long), C67_pause_ends and C67_clock (when exactly a pause ends) hold for every timed history; C67_same_behaviour shows that the timed model is the State model with a clock. The last clause is false: C67_false_clock_set_by_outsider shows an unsigned proposal for a far height that sets the clock and delays the next height by two thirds of the interval.")
s("C68","partial","C68_seeds_do_not_matter and C68_same_decisions hold for all orders and histories in which storage works, aggregation of signatures does not depend on the order, validator lists have no duplicates and u32 weights (at most 2^30 validators), and commits are answered with a later height whose leader can be determined. Without the last condition the claim is false: C68_false_after_stale_answer.")
s("C69","proved","For every state, history and environment. Copies are taken to arrive directly after the message and to get the same answers of application, storage and cryptography (with different hash orders: C69_repetitions_in_any_order). Copies that arrive later can have an effect: C69_late_copy_can_help.")
s("C70","partial","Proved for whole lives with crashes and restarts under the conditions of C31 (orders are taken up at the height they were given for, rounds not at the end of u64, the storage returns the record saved last). Without the first the claim is false (C70_false_with_stale_orders).")
s("C71","partial","Proved for any number of faulty validators, under the conditions of C31 on the steps of correct nodes (orders are taken up at the height they were given for, rounds not at the end of u64, the storage returns the record saved last). Without the first a correct node can be framed (C71_false_with_stale_orders).")
s("C72","partial","the heights never go down: proved for every life; strictly rising or identical after a restart: proved if the application does not fail to commit and a restart finds a leader and can save the record again; false if the application fails (witness: the same height is handed over again with another proof)")
s("C73","partial","under the conditions of C44 (without them agreement is false: witnesses in C43)")
s("C74","partial","proved for whole lives with crashes and restarts if the application does not fail to commit and no stale order is taken up; false after a failed commit (witness: a pending brake timeout overwrites the record of the commit, and after a restart the decided block is not committed again)")
s("C75","proved","whole lives with crashes and restarts; hypotheses: the application answers a commit with the next height, storage returns the last record, no status from outside takes the node to a later height (an example shows that this is needed)")
s("C76","proved","full; a proposal of the past is looked up in the leader table first, which panics if the validator list is empty, so the clauses on histories and 'stop nothing' ask for a usable list (C48)")
s("C77","proved","full for total weights below 2^32, as the property says; safety and one-block clauses for all weights. A vote for a later round makes the node broadcast the certificate again (C77_made_again; C61)")
s("C78","proved","full: an order is given iff more than two thirds (by number, senders counted once, whether validators or not, see C41) have choked")
