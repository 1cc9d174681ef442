{
 "claims": [
  {
   "property": "C01",
   "status": "partial",
   "theorems": [
    "Overlord.C01_position_never_goes_back_partial",
    "Overlord.C01_false_at_last_round"
   ],
   "note": "Proved for every trigger list except a certificate for round 2^64-1 (the code wraps: C01_false_at_last_round is the machine-checked witness) and WAL triggers (which exist only at restart)."
  },
  {
   "property": "C02",
   "status": "partial",
   "theorems": [
    "Overlord.C02_at_most_one_vote_partial",
    "Overlord.C02_votes_strictly_ordered_partial"
   ],
   "note": "Proved for every trigger list except a certificate for round 2^64-1 and WAL triggers (restarts are C31)."
  },
  {
   "property": "C03",
   "status": "proved",
   "theorems": [
    "Overlord.C03_locked_votes",
    "Overlord.C03_lock_changes",
    "Overlord.C03_timeouts_and_chokes_keep_lock"
   ],
   "note": ""
  },
  {
   "property": "C04",
   "status": "partial",
   "theorems": [
    "Overlord.C04_precommit_justified",
    "Overlord.C04_no_prevote_when_skipping_partial"
   ],
   "note": "C04_precommit_justified is full; the skip-prevote clause is proved under the in-range hypothesis."
  },
  {
   "property": "C05",
   "status": "proved",
   "theorems": [
    "Overlord.C05_commit_needs_precommit_quorum",
    "Overlord.C05_precommit_quorum_commits"
   ],
   "note": ""
  },
  {
   "property": "C06",
   "status": "proved",
   "theorems": [
    "Overlord.C06_stale_inputs_inert"
   ],
   "note": ""
  },
  {
   "property": "C07",
   "status": "proved",
   "theorems": [
    "Overlord.C07_commit_heights_increase",
    "Overlord.C07_false_in_state_machine"
   ],
   "note": "C07_commit_heights_increase: over every history of the State between starts. The voting state machine alone may order two commits for a height (C07_false_in_state_machine is a witness); the State's height check stops the second."
  },
  {
   "property": "C08",
   "status": "proved",
   "theorems": [
    "Overlord.C08_threshold_is_two_thirds"
   ],
   "note": "For lists of at most 2^30 validators with u32 weights (no u64 overflow possible)."
  },
  {
   "property": "C09",
   "status": "proved",
   "theorems": [
    "Overlord.C09_quorums_intersect",
    "Overlord.C09_quorums_share_honest",
    "Overlord.C09_certificates_share_honest"
   ],
   "note": ""
  },
  {
   "property": "C10",
   "status": "proved",
   "theorems": [
    "Overlord.C10_bitmap_names_voters"
   ],
   "note": "Bitmap construction of generate_qc, any list length and order."
  },
  {
   "property": "C11",
   "status": "proved",
   "theorems": [
    "Overlord.C11_order_irrelevant",
    "Overlord.C11_weights_are_as_given"
   ],
   "note": ""
  },
  {
   "property": "C12",
   "status": "proved",
   "theorems": [
    "Overlord.C12_elected_has_two_thirds",
    "Overlord.C12_at_most_one_elected",
    "Overlord.C12_order_independent"
   ],
   "note": "For any history of votes by validators and any iteration order of the hash maps."
  },
  {
   "property": "C13",
   "status": "proved",
   "theorems": [
    "Overlord.C13_first_vote_wins",
    "Overlord.C13_later_votes_change_nothing"
   ],
   "note": ""
  },
  {
   "property": "C14",
   "status": "partial",
   "theorems": [
    "Overlord.C14_recognised_iff_two_thirds_partial",
    "Overlord.C14_never_below_two_thirds",
    "Overlord.C14_false_for_large_weights"
   ],
   "note": "False for totals >= 2^32 (C14_false_for_large_weights: the u32 sum wraps); proved for totals < 2^32; the no-false-positive half is proved unrestricted."
  },
  {
   "property": "C15",
   "status": "partial",
   "theorems": [
    "Overlord.C15_get_leader_is_the_nodes_rotation",
    "Overlord.C15_get_leader_is_the_nodes_random_partial",
    "Overlord.C15_false_in_random_mode",
    "Overlord.C15_false_in_random_mode_panic"
   ],
   "note": "Proved in default mode for every input; in random_leader mode false for propose weight sums >= 2^32 (two witnesses), proved below."
  },
  {
   "property": "C16",
   "status": "partial",
   "theorems": [
    "Overlord.C16_every_validator_leads_partial",
    "Overlord.C16_false_at_wrap"
   ],
   "note": "False where height*stride+round wraps at 2^64 (witness); proved elsewhere."
  },
  {
   "property": "C17",
   "status": "partial",
   "theorems": [
    "Overlord.C17_leadership_rotates_over_heights_partial"
   ],
   "note": "Proved below the 2^64 wrap; uses Bertrand's postulate from Mathlib."
  },
  {
   "property": "C18",
   "status": "proved",
   "theorems": [
    "Overlord.C18_random_leader_proportional"
   ],
   "note": "The generator is an arbitrary digit list; proportionality is exact counting over all 2^64 digits."
  },
  {
   "property": "C19",
   "status": "partial",
   "theorems": [
    "Overlord.C19_signature_partial",
    "Overlord.StDemo.C19_one_of_four_counterexample"
   ],
   "note": "False: the result of the threshold test is dropped, so a certificate of one validator out of four is acted on and commits a block (witness). The signature half is proved."
  },
  {
   "property": "C20",
   "status": "partial",
   "theorems": [
    "Overlord.C20_polc_signature_partial",
    "Overlord.C20_choke_count_partial",
    "Overlord.StDemo.C20_unverified_evidence_counterexample"
   ],
   "note": "False: certificates inside chokes are not verified, choke certificates are only counted, lock evidence may be about another block and round (witness). What is verified is proved."
  },
  {
   "property": "C21",
   "status": "partial",
   "theorems": [
    "Overlord.C21_processed_is_verified_partial",
    "Overlord.C21_false_for_early_messages"
   ],
   "note": "Full statement is false: C21_false_for_early_messages commits on a forged certificate that arrived one height early and was never checked. Proved for whole lives: every message that takes effect was verified in the view of its height, or arrived before its height was reached."
  },
  {
   "property": "C22",
   "status": "proved",
   "theorems": [
    "Overlord.C22_signed_proposal",
    "Overlord.C22_proposal",
    "Overlord.C22_commit",
    "Overlord.C22_wal_lock",
    "Overlord.C22_wal_record",
    "Overlord.C22_encoders_total",
    "Overlord.C22_signature",
    "Overlord.C22_certificate",
    "Overlord.C22_polc",
    "Overlord.C22_vote",
    "Overlord.C22_signed_vote",
    "Overlord.C22_proof",
    "Overlord.C22_duration",
    "Overlord.C22_node",
    "Overlord.C22_choke_certificate",
    "Overlord.C22_update_from",
    "Overlord.C22_choke",
    "Overlord.C22_signed_choke"
   ],
   "note": "Every wire and WAL type; bytes of the rlp crate modelled (trusted), contents with any faithful codec. Rich status is C23."
  },
  {
   "property": "C23",
   "status": "partial",
   "theorems": [
    "Overlord.C23_partial",
    "Overlord.C23_exact",
    "Overlord.C23_other_fields",
    "Overlord.C23_fails"
   ],
   "note": "False: Some(0) interval and Some(all-zero) timer config decode as None (C23_fails); C23_exact characterises exactly when it round-trips."
  },
  {
   "property": "C24",
   "status": "partial",
   "theorems": [
    "Overlord.C24_vote_injective",
    "Overlord.C24_proposal_injective",
    "Overlord.C24_hash_choke_injective",
    "Overlord.C24_kinds_differ",
    "Overlord.C24_choke_from_unsigned_fails",
    "Overlord.C24_choke_partial"
   ],
   "note": "Proved for votes, proposals and kinds; false for chokes: the justification is not signed (C24_choke_from_unsigned_fails)."
  },
  {
   "property": "C25",
   "status": "partial",
   "theorems": [
    "Overlord.C25_partial",
    "Overlord.C25_choke_panics_only_on_tag",
    "Overlord.C25_wal_panics_only_on_tag",
    "Overlord.C25_fails"
   ],
   "note": "False: a signed choke with justification tag > 2 and a WAL record with step > 4 panic (C25_fails); all other decoders proved panic-free on every byte string, and those two cases are proved to be the only ones."
  },
  {
   "property": "C26",
   "status": "partial",
   "theorems": [
    "Overlord.C26_duration",
    "Overlord.C26_monotone",
    "Overlord.C26_armed_partial",
    "Overlord.C26_new_config",
    "Overlord.C26_config_kept",
    "Overlord.C26_demo_ok",
    "Overlord.C26_fails_after_restart"
   ],
   "note": "Proved for every schedule from rounds < 2^32, without u64 overflow of interval*ratio, for nodes started fresh or from a WAL record at the propose step; false at round 2^32 (u32 truncation) and after a restart at another step (C26_fails_after_restart: the timer's round stays 0)."
  },
  {
   "property": "C27",
   "status": "proved",
   "theorems": [
    "Overlord.C27_live_timer",
    "Overlord.C27_not_filtered",
    "Overlord.C27_never_waits_forever"
   ],
   "note": "Invariant over all schedules of state machine, timer and expiries, and a liveness theorem for fair infinite schedules. Until Stop."
  },
  {
   "property": "C28",
   "status": "proved",
   "theorems": [
    "Overlord.C28_timeouts_faithful",
    "Overlord.C28_seen_height_grows",
    "Overlord.C28_height_seen",
    "Overlord.C28_outdated_dropped"
   ],
   "note": ""
  },
  {
   "property": "C29",
   "status": "proved",
   "theorems": [
    "Overlord.C29_vote_after_log",
    "Overlord.C29_choke_after_log",
    "Overlord.C29_no_save_no_vote"
   ],
   "note": "Every input of the State loop, every environment answer."
  },
  {
   "property": "C30",
   "status": "partial",
   "theorems": [
    "Overlord.C30_never_votes_again_partial",
    "Overlord.C30_resumes_partial",
    "Overlord.C30_commit_recorded",
    "Overlord.C30_commit_records_complete",
    "Overlord.C30_commit_again",
    "Overlord.C30_brake_failure"
   ],
   "note": "Proved for whole lives: no vote at or before the recorded position after a restart (rounds below 2^64-1, heights above 0); position, reason, lock, certificate and content restored; a commit record is always complete, precedes its commit, and a restart from it re-issues exactly that commit. Missing: a brake-step record whose re-broadcast fails never reaches the voting state machine (C30_brake_failure shows it)."
  },
  {
   "property": "C31",
   "status": "partial",
   "theorems": [
    "Overlord.C31_false_in_ordinary_runs",
    "Overlord.C31_votes_ordered_partial",
    "Overlord.C31_no_equivocation_partial",
    "Overlord.C31_saved_before_released_partial",
    "Overlord.C31_false_with_stale_orders"
   ],
   "note": "Full statement is false: C31_false_with_stale_orders and C31_false_in_ordinary_runs are witnesses without any crash or Byzantine message (the second also without a status from outside). Proved over whole lives with arbitrary crashes and restarts when the State takes up orders only at the height they were given for (InSync), rounds below 2^64-1, and the storage returns the record saved last at each start."
  },
  {
   "property": "C32",
   "status": "proved",
   "theorems": [
    "Overlord.C32_commit_consistent"
   ],
   "note": "For every history of inputs (with any environment answers), including restarts."
  },
  {
   "property": "C33",
   "status": "partial",
   "theorems": [
    "Overlord.C33_committed_is_checked_partial",
    "Overlord.C33_false_for_ambiguous_hashes"
   ],
   "note": "Full statement is false: C33_false_for_ambiguous_hashes has two witnesses (a refused second proposal still replaces the content; a check of an earlier height counts later). Proved over whole lives, with crashes, restarts and arbitrary messages, when a hash fixes height and content, saving does not fail and starts load what was saved."
  },
  {
   "property": "C34",
   "status": "proved",
   "theorems": [
    "Overlord.C34_checked_first"
   ],
   "note": "Success reports are the inputs of the resp queue (the code sends one only when check_block succeeded)."
  },
  {
   "property": "C35",
   "status": "partial",
   "theorems": [
    "Overlord.C35_silent",
    "Overlord.C35_power_follows_status",
    "Overlord.C35_outsider_never_acts",
    "Overlord.C35_unlisted_silent_partial",
    "Overlord.StDemo.C35_unlisted_votes_counterexample"
   ],
   "note": "False: when commit() returns a status that is not higher than the current height, the new list is installed without re-evaluating the node's membership (witness). Proved when commit() returns a higher status and WAL saves succeed."
  },
  {
   "property": "C36",
   "status": "proved",
   "theorems": [
    "Overlord.C36_vote_outside_ignored",
    "Overlord.C36_proposal_outside_ignored",
    "Overlord.C36_certificate_outside_ignored",
    "Overlord.C36_choke_outside_ignored",
    "Overlord.C36_vote_inside_kept",
    "Overlord.C36_cache_bounded"
   ],
   "note": ""
  },
  {
   "property": "C37",
   "status": "partial",
   "theorems": [
    "Overlord.C37_only_the_leader",
    "Overlord.C37_second_refused_partial",
    "Overlord.C37_first_is_kept",
    "Overlord.C37_kept_was_received",
    "Overlord.StDemo.C37_refused_content_kept_counterexample"
   ],
   "note": "False: a refused second proposal still overwrites the content held for its hash (witness). Refusal and leader check are proved."
  },
  {
   "property": "C38",
   "status": "partial",
   "theorems": [
    "Overlord.C38_not_higher_ignored",
    "Overlord.C38_height_never_decreases",
    "Overlord.C38_adopted_partial",
    "Overlord.C38_not_listed",
    "Overlord.C38_save_failure",
    "Overlord.StDemo.C38_list_not_adopted_counterexample"
   ],
   "note": "False: a status that does not list the node is adopted without its list (witness). Everything else is proved."
  },
  {
   "property": "C39",
   "status": "proved",
   "theorems": [
    "Overlord.C39_flush_votes",
    "Overlord.C39_flush_proposals",
    "Overlord.C39_get_height_proposals",
    "Overlord.C39_rounds_once",
    "Overlord.C39_get_height_votes_content",
    "Overlord.C39_get_height_votes_removes"
   ],
   "note": ""
  },
  {
   "property": "C40",
   "status": "proved",
   "theorems": [
    "Overlord.C40_one_report",
    "Overlord.C40_no_other_report"
   ],
   "note": ""
  },
  {
   "property": "C41",
   "status": "partial",
   "theorems": [
    "Overlord.C41_choke_unblocks",
    "Overlord.C41_own_choke_unblocks",
    "Overlord.C41_never_below_partial",
    "Overlord.StDemo.C41_outsiders_unblock_counterexample"
   ],
   "note": "The quorum and aggregation clauses are proved; 'never below' is false because a choke certificate carried by a choke is believed and outsiders' chokes count (witness)."
  },
  {
   "property": "C42",
   "status": "partial",
   "theorems": [
    "Overlord.C42_stop_panics_counterexample",
    "Overlord.C42_stop_partial",
    "Overlord.C42_only_stop_stops"
   ],
   "note": "False: Stop from the handler panics the main task in every state (C42_stop_panics_counterexample)."
  },
  {
   "property": "C43",
   "status": "partial",
   "theorems": [
    "Overlord.C43_agreement_partial",
    "Overlord.C43_false_with_self_unlock",
    "Overlord.C43_false_with_weak_certificates"
   ],
   "note": "Full statement is false: C43_false_with_self_unlock and C43_false_with_weak_certificates are full network schedules in which two correct nodes commit different blocks for one height. Proved for any number of nodes and weights, every schedule and every message of faulty nodes, if (KeepsLocks) no lock is removed by a certificate for the locked block itself, (GenuineInput) certificates acted upon have counted weight, (InSync) orders are taken up at the height they were given for."
  },
  {
   "property": "C44",
   "status": "partial",
   "theorems": [
    "Overlord.C44_agreement_partial",
    "Overlord.C44_same_block_partial",
    "Overlord.C44_agreement_from_signatures_partial"
   ],
   "note": "As C43, over whole lives with crashes at every effect and any number of restarts from the record saved last. C44_agreement_from_signatures_partial replaces the assumption of genuine messages by unforgeable signatures, no message taken up unverified (C21), and messages that do not exploit what the code leaves unchecked (C19, C20)."
  },
  {
   "property": "C45",
   "status": "partial",
   "theorems": [
    "Overlord.C45_good_round_commits_partial",
    "Overlord.C45_nobody_leaves_partial",
    "Overlord.C45_weak_certificate_spoils_round"
   ],
   "note": "Full statement is false: C45_weak_certificate_spoils_round is a full network schedule in which one validator of weight 1 in 9 stops a good round with a certificate it alone signed. Proved for every validator set, round, block, lock situation, schedule, and number of repeated, late or reordered messages, when faulty validators send votes (of any content), proposals (except in the name of the round's leader), chokes of the round (if they are at most two thirds by number) and outdated messages: every live node commits the block in that round once messages are delivered (C45_good_round_commits_partial), and no live node fails or leaves the round at any point (C45_nobody_leaves_partial)."
  },
  {
   "property": "C46",
   "status": "partial",
   "theorems": [
    "Overlord.C46_never_behind_partial",
    "Overlord.StDemo.C46_restart_behind_counterexample"
   ],
   "note": "False: an old WAL record overrides init_height (witness); proved when the record is not behind."
  },
  {
   "property": "C47",
   "status": "proved",
   "theorems": [
    "Overlord.C47_bytes_round_trip",
    "Overlord.C47_field_round_trip",
    "Overlord.C47_list_round_trip",
    "Overlord.C47_length"
   ],
   "note": "The hex functions of crate hummer are modelled (trusted)."
  },
  {
   "property": "C48",
   "status": "proved",
   "theorems": [
    "Overlord.C48_no_input_panics",
    "Overlord.C48_start_succeeds",
    "Overlord.C48_up_unless_crashed",
    "Overlord.C48_empty_list_panics"
   ],
   "note": "Whole node model (State, voting task, timer), every history. C48_empty_list_panics shows that the assumption on validator lists is needed; Stop is C42, impossible WAL tags C25. Spawned verification tasks are modelled as functions that cannot panic (parallel.rs has no unwrap)."
  },
  {
   "property": "C49",
   "status": "proved",
   "theorems": [
    "Overlord.C49_proposal",
    "Overlord.C49_propose_timeout",
    "Overlord.C49_prevote_quorum",
    "Overlord.C49_later_prevote_quorum",
    "Overlord.C49_prevote_timeout",
    "Overlord.C49_precommit_quorum",
    "Overlord.C49_empty_precommit_quorum",
    "Overlord.C49_precommit_timeout",
    "Overlord.C49_brake_timeout",
    "Overlord.C49_choke_quorum",
    "Overlord.C49_status",
    "Overlord.C49_reacts_iff_live",
    "Overlord.C49_catches_up"
   ],
   "note": "Reactions in every reachable state; the round-skipping clauses and the run-level catch-up exclude round 2^64-1 (finding: the counter wraps, C01_false_at_last_round)."
  },
  {
   "property": "C50",
   "status": "proved",
   "theorems": [
    "Overlord.C50_precommit_after_check",
    "Overlord.C50_commit_after_check",
    "Overlord.C50_check_was_of_this_block"
   ],
   "note": "Over whole lives of a node with no assumption on messages, schedule or storage. A block that a starting node passes to commit() again from its record is the subject of C33. The identity of the checked content needs unambiguous hashes (C33_false_for_ambiguous_hashes)."
  },
  {
   "property": "C51",
   "status": "partial",
   "theorems": [
    "Overlord.C51_commit_was_checked_partial",
    "Overlord.C51_checked_this_content_partial",
    "Overlord.C51_false_with_weak_certificates"
   ],
   "note": "Full statement is false (C51_false_with_weak_certificates: a certificate signed by one validator suffices for a commit). Proved over all network schedules with crashes and restarts in which certificates that are acted upon have counted weight (GenuineSchedule); neither InSync nor KeepsLocks is needed."
  },
  {
   "property": "C52",
   "status": "partial",
   "theorems": [
    "Overlord.C52_sends_genuine_partial",
    "Overlord.C52_proposal_lock_is_certified_partial"
   ],
   "note": "Proved for all schedules meeting GenuineSchedule, except for chokes of height 0 (a node that was never given a status)."
  },
  {
   "property": "C53",
   "status": "partial",
   "theorems": [
    "Overlord.C53_votes_partial",
    "Overlord.C53_chokes",
    "Overlord.C53_commits",
    "Overlord.C53_enters",
    "Overlord.C53_votes_fit",
    "Overlord.NetDemo.C53_false_after_lost_wal"
   ],
   "note": "The full statement is false in round 0 after a start with an empty storage (C53_false_after_lost_wal: the vote goes to the empty address); C53_votes_partial leaves that case open, the other clauses are full. Assumes schedules meeting OrderSchedule (genuine certificates, unambiguous hashes, records loaded were saved, commit answers have a leader, no wrap of the round counter)."
  },
  {
   "property": "C54",
   "status": "partial",
   "theorems": [
    "Overlord.C54_round_ends_partial",
    "Overlord.C54_stragglers_catch_up_partial",
    "Overlord.C54_rounds_apart_partial",
    "Overlord.PaceDemo.C54_false_rounds_apart"
   ],
   "note": "Proved over all infinite histories for live validators that stand in the same round (C54_round_ends_partial), and for live validators in different rounds unless one above the lowest round is there because of a prevote certificate (C54_rounds_apart_partial; C54_stragglers_catch_up_partial for two validators, no quorum needed). For the remaining case the statement is false: C54_false_rounds_apart is an infinite history of four correct validators, one of which crashes, in which every message between the other three arrives and they wait for each other for ever (finding 22). Assumes schedules meeting NetStep/OrderStep (as C53)."
  },
  {
   "property": "C55",
   "status": "proved",
   "theorems": [
    "Overlord.C55_chokes_explain",
    "Overlord.C55_records_explain",
    "Overlord.C55_states_explain"
   ],
   "note": "All histories of networks under OrderSchedule (C53). The voters named in a choke certificate are counted, not that each of them signed: the code does not check that they are validators (C20)."
  },
  {
   "property": "C56",
   "status": "proved",
   "theorems": [
    "Overlord.C56_verified_is_genuine"
   ],
   "note": "All network schedules with crashes and restarts meeting GenuineSchedule so far. Messages received before their height was reached are excluded (C21_false_for_early_messages: they are not verified). Thresholds are not checked by the code (C19), so backing by two thirds is conditional on the bitmap."
  },
  {
   "property": "C57",
   "status": "proved",
   "theorems": [
    "Overlord.C57_in_order_once",
    "Overlord.C57_send_result",
    "Overlord.C57_run_once",
    "Overlord.C57_nothing_lost",
    "Overlord.C57_same_histories"
   ],
   "note": "All clauses, for one object and any earlier life of its node. C57_same_histories shows that the histories behind the channel are exactly the single-start histories of the node model all other theorems are about."
  },
  {
   "property": "C58",
   "status": "partial",
   "theorems": [
    "Overlord.C58_tasks_fall_asleep_partial",
    "Overlord.C58_tasks_never_end"
   ],
   "note": "The bounded number of steps is proved (C58_tasks_fall_asleep_partial); the rest is false: C58_tasks_never_end shows for every such history that the tasks of the voting state machine and of the timer stay for ever (each holds the sender the other one waits for)."
  },
  {
   "property": "C59",
   "status": "proved",
   "theorems": [
    "Overlord.C59_committed_block_origin",
    "Overlord.C59_proposed_block_origin",
    "Overlord.C59_saved_block_origin",
    "Overlord.C59_asked_as_leader",
    "Overlord.C59_correct_leaders",
    "Overlord.C59_signed_schedule",
    "Overlord.C59_origin_from_signatures"
   ],
   "note": "Assumes what the other network claims assume of the application (answers, working storage, lists) and that nobody can sign proposals for correct nodes; C59_origin_from_signatures derives the latter from the signature scheme for messages that do not arrive early (C21)."
  },
  {
   "property": "C60",
   "status": "proved",
   "theorems": [
    "Overlord.C60_one_input",
    "Overlord.C60_only_votes_make_it_send",
    "Overlord.C60_total"
   ],
   "note": "All clauses, with the exact allowance per kind of input in Spec/Traffic.lean; examples use the allowances up."
  },
  {
   "property": "C61",
   "status": "partial",
   "theorems": [
    "Overlord.C61_late_votes_inert",
    "Overlord.C61_once_partial",
    "Overlord.C61_false_for_later_votes"
   ],
   "note": "C61_once_partial: a second broadcast happens only for the node's own vote or for a vote of a later round. The full claim is false: C61_false_for_later_votes shows a node that repeats the broadcast for every copy of one later-round vote (finding 24)."
  },
  {
   "property": "C62",
   "status": "partial",
   "theorems": [
    "Overlord.C62_commit_proof_convinces_partial",
    "Overlord.C62_no_conflicting_proofs_partial",
    "Overlord.LightDemo.C62_false_for_weak_certificates"
   ],
   "note": "Every certificate a node sends, saves or commits convinces an outsider, and accepted proofs do not conflict; excluded: received certificates below the threshold / in chokes, which the code does not check (counterexample proved), early messages, and C44's conditions for the conflict part."
  },
  {
   "property": "C63",
   "status": "partial",
   "theorems": [
    "Overlord.C63_checks_hold_partial",
    "Overlord.C63_false_stale_proposal",
    "Overlord.C63_stale_proposal_harmless"
   ],
   "note": "All documented conditions except the fourth, which is false (C63_false_stale_proposal); C63_stale_proposal_harmless shows that its failure changes nothing. Records are assumed sound (the lock is on a block and not from the future); rounds below 2^64-1."
  },
  {
   "property": "C64",
   "status": "partial",
   "theorems": [
    "Overlord.C64_vote_partial",
    "Overlord.C64_proposal_partial",
    "Overlord.C64_certificate_partial",
    "Overlord.C64_forged_vote_displaces",
    "Overlord.C64_forged_proposal_displaces",
    "Overlord.C64_forged_certificate_displaces",
    "Overlord.C64_newcomer_refused"
   ],
   "note": "For the first vote or proposal of its slot by a validator (leader) of the list the node has on arrival, and the last certificate of its slot; no restart in between (the caches are not stored), all saves succeed, node stays a validator. The full claim is false: forged early messages displace genuine ones, newcomers are refused (C64_forged_vote_displaces, C64_forged_proposal_displaces, C64_forged_certificate_displaces, C64_newcomer_refused)."
  },
  {
   "property": "C65",
   "status": "partial",
   "theorems": [
    "Overlord.C65_chain_grows_partial",
    "Overlord.C65_commits_follow_plan_partial",
    "Overlord.C65_early_proposal_lost"
   ],
   "note": "With C45's restriction on what faulty validators send. Messages of live nodes may arrive before the node has reached their height, up to four heights early and also across validator-list changes, with one exception without which the claim is false (C65_early_proposal_lost): a proposal may be early only if its proposer leads that height by the current list too. Validator lists, weights and leaders may change with each height; nodes may be at different heights."
  },
  {
   "property": "C66",
   "status": "partial",
   "theorems": [
    "Overlord.C66_votes_bounded_partial",
    "Overlord.C66_proposals_bounded_partial",
    "Overlord.C66_blocks_unbounded",
    "Overlord.C66_certificates_unbounded",
    "Overlord.C66_chokes_unbounded",
    "Overlord.C66_checks_kept"
   ],
   "note": "Votes and proposals are bounded (C66_votes_bounded_partial, C66_proposals_bounded_partial), given working storage. For the rest the claim is false: for every n, n blocks from one leader in one round, n certificates signed by one validator, n chokes of outsiders are all kept (C66_*_unbounded), and results of block checks are never dropped (C66_checks_kept)."
  },
  {
   "property": "C67",
   "status": "partial",
   "theorems": [
    "Overlord.C67_same_behaviour",
    "Overlord.C67_all_recorded",
    "Overlord.C67_leader_waits",
    "Overlord.C67_pauses",
    "Overlord.C67_pause_ends",
    "Overlord.C67_clock",
    "Overlord.C67_false_clock_set_by_outsider"
   ],
   "note": "C67_leader_waits (lower bound), C67_pauses (who pauses and how long), C67_pause_ends and C67_clock (when exactly a pause ends) hold for every timed history; C67_same_behaviour shows that the timed model is the State model with a clock. The last clause is false: C67_false_clock_set_by_outsider shows an unsigned proposal for a far height that sets the clock and delays the next height by two thirds of the interval."
  },
  {
   "property": "C68",
   "status": "partial",
   "theorems": [
    "Overlord.C68_seeds_do_not_matter",
    "Overlord.C68_same_decisions",
    "Overlord.C68_false_after_stale_answer"
   ],
   "note": "C68_seeds_do_not_matter and C68_same_decisions hold for all orders and histories in which storage works, aggregation of signatures does not depend on the order, validator lists have no duplicates and u32 weights (at most 2^30 validators), and commits are answered with a later height whose leader can be determined. Without the last condition the claim is false: C68_false_after_stale_answer."
  },
  {
   "property": "C69",
   "status": "proved",
   "theorems": [
    "Overlord.C69_second_time_changes_nothing",
    "Overlord.C69_repetitions_change_nothing",
    "Overlord.C69_repetitions_in_any_order",
    "Overlord.C69_late_copy_can_help"
   ],
   "note": "For every state, history and environment. Copies are taken to arrive directly after the message and to get the same answers of application, storage and cryptography (with different hash orders: C69_repetitions_in_any_order). Copies that arrive later can have an effect: C69_late_copy_can_help."
  },
  {
   "property": "C70",
   "status": "partial",
   "theorems": [
    "Overlord.C70_proposals_ordered_partial",
    "Overlord.C70_one_proposal_per_round_partial",
    "Overlord.C70_recorded_first_partial",
    "Overlord.C70_false_with_stale_orders"
   ],
   "note": "Proved for whole lives with crashes and restarts under the conditions of C31 (orders are taken up at the height they were given for, rounds not at the end of u64, the storage returns the record saved last). Without the first the claim is false (C70_false_with_stale_orders)."
  },
  {
   "property": "C71",
   "status": "partial",
   "theorems": [
    "Overlord.C71_two_votes_prove_fault_partial",
    "Overlord.C71_conflict_names_the_faulty_partial",
    "Overlord.C71_no_conflict_partial",
    "Overlord.C71_two_proposals_prove_fault_partial",
    "Overlord.C71_false_with_stale_orders"
   ],
   "note": "Proved for any number of faulty validators, under the conditions of C31 on the steps of correct nodes (orders are taken up at the height they were given for, rounds not at the end of u64, the storage returns the record saved last). Without the first a correct node can be framed (C71_false_with_stale_orders)."
  },
  {
   "property": "C72",
   "status": "partial",
   "theorems": [
    "Overlord.C72_heights_in_order",
    "Overlord.C72_once_or_again_partial",
    "Overlord.C72_one_commit_per_height_partial",
    "Overlord.C72_once_between_starts_partial",
    "Overlord.C72_false_after_failed_commit"
   ],
   "note": "the heights never go down: proved for every life; strictly rising or identical after a restart: proved if the application does not fail to commit and a restart finds a leader and can save the record again; false if the application fails (witness: the same height is handed over again with another proof)"
  },
  {
   "property": "C73",
   "status": "partial",
   "theorems": [
    "Overlord.C73_prefix_partial",
    "Overlord.C73_one_chain_partial",
    "Overlord.C73_same_sequence_partial"
   ],
   "note": "under the conditions of C44 (without them agreement is false: witnesses in C43)"
  },
  {
   "property": "C74",
   "status": "partial",
   "theorems": [
    "Overlord.C74_forward_partial",
    "Overlord.C74_storage_is_furthest_partial",
    "Overlord.C74_commit_is_kept_partial",
    "Overlord.C74_at_or_after_records_partial",
    "Overlord.C74_false_after_failed_commit"
   ],
   "note": "proved for whole lives with crashes and restarts if the application does not fail to commit and no stale order is taken up; false after a failed commit (witness: a pending brake timeout overwrites the record of the commit, and after a restart the decided block is not committed again)"
  },
  {
   "property": "C75",
   "status": "proved",
   "theorems": [
    "Overlord.C75_no_height_left_out",
    "Overlord.C75_nothing_missing"
   ],
   "note": "whole lives with crashes and restarts; hypotheses: the application answers a commit with the next height, storage returns the last record, no status from outside takes the node to a later height (an example shows that this is needed)"
  },
  {
   "property": "C76",
   "status": "proved",
   "theorems": [
    "Overlord.C76_past_is_ignored",
    "Overlord.C76_past_leaves_history",
    "Overlord.C76_waiting_messages_enable_nothing",
    "Overlord.C76_same_life_without",
    "Overlord.C76_waiting_messages_stop_nothing"
   ],
   "note": "full; a proposal of the past is looked up in the leader table first, which panics if the validator list is empty, so the clauses on histories and 'stop nothing' ask for a usable list (C48)"
  },
  {
   "property": "C77",
   "status": "proved",
   "theorems": [
    "Overlord.C77_certificate_iff_two_thirds",
    "Overlord.C77_only_with_two_thirds",
    "Overlord.C77_one_block",
    "Overlord.C77_once",
    "Overlord.C77_order_does_not_matter",
    "Overlord.C77_in_any_company",
    "Overlord.C77_one_block_in_any_company",
    "Overlord.C77_made_again"
   ],
   "note": "full for total weights below 2^32, as the property says; safety and one-block clauses for all weights. A vote for a later round makes the node broadcast the certificate again (C77_made_again; C61)"
  },
  {
   "property": "C78",
   "status": "proved",
   "theorems": [
    "Overlord.C78_left_iff_two_thirds",
    "Overlord.C78_order_does_not_matter",
    "Overlord.C78_in_any_company"
   ],
   "note": "full: an order is given iff more than two thirds (by number, senders counted once, whether validators or not, see C41) have choked"
  }
 ]
}