# Axioms

Generated by `tools/gen_axioms.py` from `#print axioms`: 295 property theorems, grouped by the axioms they depend on.

## Classical.choice, Quot.sound, propext

`C01_position_never_goes_back_partial`, `C02_at_most_one_vote_partial`, `C02_votes_strictly_ordered_partial`, `C04_no_prevote_when_skipping_partial`, `C07_commit_heights_increase`, `C07_false_in_state_machine`, `C08_threshold_is_two_thirds`, `C09_certificates_share_honest`, `C10_bitmap_names_voters`, `C11_order_irrelevant`, `C11_weights_are_as_given`, `C12_elected_has_two_thirds`, `C12_order_independent`, `C13_first_vote_wins`, `C13_later_votes_change_nothing`, `C14_never_below_two_thirds`, `C14_recognised_iff_two_thirds_partial`, `C15_get_leader_is_the_nodes_random_partial`, `C15_get_leader_is_the_nodes_rotation`, `C16_every_validator_leads_partial`, `C17_leadership_rotates_over_heights_partial`, `C18_random_leader_proportional`, `C19_signature_partial`, `C20_polc_signature_partial`, `C21_processed_is_verified_partial`, `C22_certificate`, `C22_choke`, `C22_choke_certificate`, `C22_commit`, `C22_duration`, `C22_node`, `C22_polc`, `C22_proof`, `C22_proposal`, `C22_signature`, `C22_signed_choke`, `C22_signed_proposal`, `C22_signed_vote`, `C22_update_from`, `C22_vote`, `C22_wal_lock`, `C22_wal_record`, `C23_exact`, `C23_other_fields`, `C23_partial`, `C24_choke_partial`, `C24_hash_choke_injective`, `C24_kinds_differ`, `C24_proposal_injective`, `C24_vote_injective`, `C25_choke_panics_only_on_tag`, `C25_wal_panics_only_on_tag`, `C26_armed_partial`, `C27_live_timer`, `C27_never_waits_forever`, `C27_not_filtered`, `C28_seen_height_grows`, `C29_choke_after_log`, `C29_no_save_no_vote`, `C29_vote_after_log`, `C30_commit_again`, `C30_commit_recorded`, `C30_commit_records_complete`, `C30_never_votes_again_partial`, `C30_resumes_partial`, `C31_no_equivocation_partial`, `C31_saved_before_released_partial`, `C31_votes_ordered_partial`, `C32_commit_consistent`, `C33_committed_is_checked_partial`, `C34_checked_first`, `C35_outsider_never_acts`, `C35_silent`, `C35_unlisted_silent_partial`, `C36_cache_bounded`, `C36_proposal_outside_ignored`, `C36_vote_inside_kept`, `C36_vote_outside_ignored`, `C37_first_is_kept`, `C37_kept_was_received`, `C37_second_refused_partial`, `C38_height_never_decreases`, `C39_get_height_votes_content`, `C40_no_other_report`, `C41_choke_unblocks`, `C41_never_below_partial`, `C41_own_choke_unblocks`, `C42_only_stop_stops`, `C43_agreement_partial`, `C44_agreement_from_signatures_partial`, `C44_agreement_partial`, `C44_same_block_partial`, `C45_good_round_commits_partial`, `C45_nobody_leaves_partial`, `C45_weak_certificate_spoils_round`, `C46_never_behind_partial`, `C48_no_input_panics`, `C48_start_succeeds`, `C48_up_unless_crashed`, `C49_catches_up`, `C50_check_was_of_this_block`, `C50_commit_after_check`, `C50_precommit_after_check`, `C51_checked_this_content_partial`, `C51_commit_was_checked_partial`, `C52_proposal_lock_is_certified_partial`, `C52_sends_genuine_partial`, `C53_chokes`, `C53_commits`, `C53_enters`, `C53_votes_fit`, `C53_votes_partial`, `C54_false_rounds_apart`, `C54_round_ends_partial`, `C54_rounds_apart_partial`, `C54_stragglers_catch_up_partial`, `C55_chokes_explain`, `C55_records_explain`, `C55_states_explain`, `C56_verified_is_genuine`, `C58_tasks_fall_asleep_partial`, `C58_tasks_never_end`, `C59_asked_as_leader`, `C59_committed_block_origin`, `C59_correct_leaders`, `C59_origin_from_signatures`, `C59_proposed_block_origin`, `C59_saved_block_origin`, `C59_signed_schedule`, `C60_only_votes_make_it_send`, `C61_once_partial`, `C62_commit_proof_convinces_partial`, `C62_false_for_weak_certificates`, `C62_no_conflicting_proofs_partial`, `C64_certificate_partial`, `C64_proposal_partial`, `C64_vote_partial`, `C65_chain_grows_partial`, `C65_commits_follow_plan_partial`, `C65_early_proposal_lost`, `C66_blocks_unbounded`, `C66_certificates_unbounded`, `C66_checks_kept`, `C66_chokes_unbounded`, `C66_proposals_bounded_partial`, `C66_votes_bounded_partial`, `C67_all_recorded`, `C67_leader_waits`, `C67_pause_ends`, `C67_pauses`, `C68_false_after_stale_answer`, `C68_same_decisions`, `C68_seeds_do_not_matter`, `C69_repetitions_change_nothing`, `C69_repetitions_in_any_order`, `C69_second_time_changes_nothing`, `C70_one_proposal_per_round_partial`, `C70_proposals_ordered_partial`, `C70_recorded_first_partial`, `C71_conflict_names_the_faulty_partial`, `C71_false_with_stale_orders`, `C71_no_conflict_partial`, `C71_two_proposals_prove_fault_partial`, `C71_two_votes_prove_fault_partial`, `C72_heights_in_order`, `C72_once_between_starts_partial`, `C72_once_or_again_partial`, `C72_one_commit_per_height_partial`, `C73_one_chain_partial`, `C73_prefix_partial`, `C73_same_sequence_partial`, `C74_at_or_after_records_partial`, `C74_commit_is_kept_partial`, `C74_forward_partial`, `C74_storage_is_furthest_partial`, `C75_no_height_left_out`, `C75_nothing_missing`, `C76_past_is_ignored`, `C76_past_leaves_history`, `C76_same_life_without`, `C76_waiting_messages_enable_nothing`, `C76_waiting_messages_stop_nothing`, `C77_certificate_iff_two_thirds`, `C77_in_any_company`, `C77_once`, `C77_one_block`, `C77_one_block_in_any_company`, `C77_only_with_two_thirds`, `C77_order_does_not_matter`, `C78_in_any_company`, `C78_left_iff_two_thirds`, `C78_order_does_not_matter`

## Quot.sound, propext

`C03_lock_changes`, `C03_locked_votes`, `C03_timeouts_and_chokes_keep_lock`, `C04_precommit_justified`, `C05_commit_needs_precommit_quorum`, `C06_stale_inputs_inert`, `C09_quorums_intersect`, `C09_quorums_share_honest`, `C12_at_most_one_elected`, `C20_choke_count_partial`, `C21_false_for_early_messages`, `C23_fails`, `C25_partial`, `C26_duration`, `C26_monotone`, `C26_new_config`, `C28_height_seen`, `C28_outdated_dropped`, `C31_false_in_ordinary_runs`, `C33_false_for_ambiguous_hashes`, `C35_power_follows_status`, `C36_certificate_outside_ignored`, `C36_choke_outside_ignored`, `C37_only_the_leader`, `C38_adopted_partial`, `C38_not_higher_ignored`, `C38_not_listed`, `C38_save_failure`, `C39_flush_proposals`, `C39_flush_votes`, `C39_get_height_proposals`, `C39_get_height_votes_removes`, `C39_rounds_once`, `C40_one_report`, `C43_false_with_self_unlock`, `C43_false_with_weak_certificates`, `C47_bytes_round_trip`, `C47_field_round_trip`, `C47_length`, `C47_list_round_trip`, `C48_empty_list_panics`, `C49_brake_timeout`, `C49_choke_quorum`, `C49_empty_precommit_quorum`, `C49_later_prevote_quorum`, `C49_precommit_quorum`, `C49_precommit_timeout`, `C49_prevote_quorum`, `C49_prevote_timeout`, `C49_proposal`, `C49_propose_timeout`, `C49_reacts_iff_live`, `C49_status`, `C51_false_with_weak_certificates`, `C53_false_after_lost_wal`, `C57_in_order_once`, `C57_nothing_lost`, `C57_run_once`, `C57_same_histories`, `C57_send_result`, `C60_one_input`, `C60_total`, `C61_false_for_later_votes`, `C61_late_votes_inert`, `C63_checks_hold_partial`, `C67_clock`, `C67_same_behaviour`, `C69_late_copy_can_help`, `C72_false_after_failed_commit`, `C74_false_after_failed_commit`

## none

`C63_false_stale_proposal`

## propext

`C01_false_at_last_round`, `C05_precommit_quorum_commits`, `C14_false_for_large_weights`, `C15_false_in_random_mode`, `C15_false_in_random_mode_panic`, `C16_false_at_wrap`, `C19_one_of_four_counterexample`, `C20_unverified_evidence_counterexample`, `C22_encoders_total`, `C24_choke_from_unsigned_fails`, `C25_fails`, `C26_config_kept`, `C26_demo_ok`, `C26_fails_after_restart`, `C28_timeouts_faithful`, `C30_brake_failure`, `C31_false_with_stale_orders`, `C35_unlisted_votes_counterexample`, `C37_refused_content_kept_counterexample`, `C38_list_not_adopted_counterexample`, `C41_outsiders_unblock_counterexample`, `C42_stop_panics_counterexample`, `C42_stop_partial`, `C46_restart_behind_counterexample`, `C63_stale_proposal_harmless`, `C64_forged_certificate_displaces`, `C64_forged_proposal_displaces`, `C64_forged_vote_displaces`, `C64_newcomer_refused`, `C67_false_clock_set_by_outsider`, `C70_false_with_stale_orders`, `C77_made_again`
