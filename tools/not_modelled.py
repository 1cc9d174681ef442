INL='inlined where it is called'
NOT={
 ('lib.rs','DurationConfig::new'):'a constructor; the model writes the record',
 ('lib.rs','DurationConfig::get_prevote_config'):INL,
 ('lib.rs','DurationConfig::get_precommit_config'):INL,
 ('lib.rs','DurationConfig::get_brake_config'):INL,
 ('serde_hex.rs','*'):'glue of serde around the hex functions; error texts',
 ('smr/mod.rs','SMR::new'):'channel set-up; the channels are lists in `TimerSys` and `NodeSys`',
 ('smr/mod.rs','SMR::take_smr'):'hands over the sender',
 ('smr/mod.rs','SMRHandler::new'):'wraps a sender',
 ('smr/mod.rs','SMRHandler::trigger'):'appends to the list of pending triggers; fails only if the task is gone (`Model/Orphan`)',
 ('smr/mod.rs','SMRHandler::new_height_status'):'appends a new-height trigger; '+INL,
 ('smr/mod.rs','*'):'wraps a receiver; the channel is a list in `TimerSys` and `NodeSys`',
 ('smr/smr_types.rs','u8 as From::from'):'used by nobody (trigger types are never encoded)',
 ('smr/smr_types.rs','TriggerType as From::from'):'used by nobody (trigger types are never encoded)',
 ('smr/state_machine.rs','goto_step'):INL,
 ('smr/state_machine.rs','remove_polc'):INL,
 ('smr/state_machine.rs','set_proposal'):INL,
 ('smr/state_machine.rs','check'):'all its code is commented out, it returns `Ok(())`; what the comment promises is C63',
 ('state/collection.rs','ProposalCollector::new'):'the empty map',
 ('state/collection.rs','ProposalRoundCollector::new'):'the empty map',
 ('state/collection.rs','VoteCollector::new'):'the empty map',
 ('state/collection.rs','print_round_choke_log'):'log lines only',
 ('state/collection.rs','*'):'one line of delegation; inlined in the method of the outer collector',
 ('state/process.rs','report_error'):'called by nobody (finding 16)',
 ('timer.rs','TimeoutInfo as Future::poll'):'the expiry of a timeout is the step `expire` of `TimerSys`; when it happens is left open',
 ('timer.rs','TimeoutInfo::new'):'adds to `armed` of `TimerSys`',
 ('types.rs','SignedVote as PartialOrd::partial_cmp'):'same as `cmp`',
 ('types.rs','Node as PartialOrd::partial_cmp'):'same as `cmp`',
 ('types.rs','*'):'field access or constructor; '+INL,
 ('utils/auth_manage.rs','get_vote_weight_sum'):INL,
 ('utils/auth_manage.rs','get_address_ref'):INL,
 ('utils/timer_config.rs','*'):INL,
}
