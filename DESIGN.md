# Formal model of nervosnetwork/overlord in Lean 4

Source: `/repo` (read as text, never built here). Model: `/verif/lean/Verif/`.
Properties: `properties.jsonl`; claims: `MANIFEST.json`; mutation log: `seeded/LOG.jsonl`.

## 1. Layout

* `Verif/Model/*`  – the model of the code. Every definition cites file and lines in `/repo`.
* `Verif/Spec/*`   – small specifications that do not mention the model's helpers.
* `Verif/Proofs/*` – helper lemmas, invariants, inductions.
* `Verif/Props/*`  – the property theorems, one file per area, each theorem followed by an
  `example` showing a concrete, non-trivial case that meets its hypotheses.

Levels of the model, bottom up:

| level | model file | code |
|-------|-----------|------|
| voting state machine | `Model/Smr` | `smr/state_machine.rs`, `smr/smr_types.rs` |
| timer | `Model/Timer` | `timer.rs`, `utils/timer_config.rs` |
| validators, leaders, bitmaps | `Model/Authority` | `utils/auth_manage.rs`, `utils/rand_proposer.rs`, `types.rs: get_leader` |
| collectors | `Model/Collection` | `state/collection.rs` |
| encodings | `Model/Rlp`, `Model/Codec`, `Model/Hex` | `codec.rs`, `wal/wal_type.rs`, `serde_hex.rs`, `serde_multi_hex.rs`, crate `rlp` |
| handlers of the State | `Model/State` | `state/process.rs`, `state/parallel.rs` |
| one node | `Model/Node` | `overlord.rs`, `State::run`, SMR, timer, the channels between them, verification and block-check tasks, storage, crashes |
| network | `Model/Net` | any number of nodes, faulty senders |

A node is an interleaving of atomic steps `NAct`: one arm of `State::run` (optionally cut short by a crash after any number of
observable effects, `cut`), one trigger of the SMR, a timer step, the completion of a spawned verification or block check, a crash,
a start. A theorem about `run` quantifies over every list of such steps, i.e. every schedule and every crash point.

## 2. Modelling conventions

* `Bytes := List UInt8`. `Hash`, `Address`, `Signature` are `Bytes` (types.rs:15-21).
* `u64`/`u32` values are `Nat`; every place where the code increments, adds or multiplies and the
  result could leave the machine range is modelled with an explicit reduction modulo `2^64`
  (`2^32` in `counting_vote`, `get_leader`), i.e. the release-profile semantics.
* `&mut self` methods become functions that return the new value. `Result` stays data
  (`Except Err`), and every `panic!`, `unwrap`, `expect`, `assert!`, `unreachable!`, index out of
  range and division by zero is an explicit `Err.panic`.
* `HashMap` is an association list with unique keys; iteration order over a hash map is an
  arbitrary permutation. `BTreeMap` iteration is by sorted key.
* `Vec::sort` is Mathlib's `List.insertionSort` (stable, kernel-reducible).
* Tracing `Context` values and log lines are dropped.
* The `Consensus`, `Crypto`, `Wal` traits are parameters: an environment record whose functions are
  arbitrary (fresh for every handler call), so a theorem quantifies over every behaviour of them.

## 3. Per property: what is modelled and how it is proved

| id | modelled | proof |
|----|----------|-------|
| C01 | `smr/state_machine.rs` complete as `Smr.step` | lexicographic measure, one-step lemma, induction over any trigger list |
| C02 | same | invariant "a vote was emitted for (h,r,type) ⇒ position is past it", induction |
| C03 | same | case analysis of `Smr.step` + induction over trigger lists |
| C04 | same | characterisation of every emitted precommit, any reachable state |
| C05 | same | characterisation of every emitted commit |
| C06 | same | stale trigger ⇒ state and outputs unchanged |
| C07 | SMR + State composition | FALSE at SMR level (commit step left by a higher prevote QC): negation with witness; positive at State level: heights of successful `commit()` calls strictly increase |
| C08 | `utils/auth_manage.rs` | equality of the model's test with the weighted-sum spec |
| C09 | weights over any finite authority list | inclusion–exclusion on weighted sums |
| C10 | bitmap encode (`bit_vec`) / `get_voters` | bit-list round trip, induction over the list |
| C11 | `AuthorityManage::update` sorts | permutations sort to the same list when addresses are distinct |
| C12 | `counting_vote` + vote pool | two disjoint sets can not both exceed 2/3; order-independence |
| C13 | `state/collection.rs` | induction over any sequence of insertions |
| C14 | `counting_vote` u32 accumulation | FALSE: witness with wrap; partial: sum < 2^32 |
| C15 | `types.rs get_leader`, `rand_proposer`, both modes | equality in rotation mode; random mode FALSE for sums ≥ 2^32, partial below |
| C16 | rotation index | bijection mod n |
| C17 | rotation index with prime step | Bertrand: the step is coprime to n |
| C18 | `rand_proposer.rs` | counting argument on accepted digits |
| C19 | `parallel.rs` | FALSE: witness; partial: signature part |
| C20 | `handle_signed_choke` etc. | FALSE: witness |
| C21 | State.run loop + verification channel | FALSE: race witness; partial: messages received at their own height |
| C22 | `codec.rs`, `wal_type.rs` over an RLP model | structural induction, generic list/string lemmas |
| C23 | Status codec | FALSE: witness; partial: `Some` non-default values |
| C24 | Vote/Proposal/HashChoke encodings | injectivity of encode via round trip; different item counts |
| C25 | decoders with explicit panics | FALSE: witness (tag bytes); partial: all other decoders |
| C26 | `timer.rs`, `timer_config.rs` | arithmetic; FALSE at round 2^32 (u32 truncation), partial below |
| C27 | SMR + timer composition | invariant over all interleavings |
| C28 | `timer.rs` | invariant |
| C29 | `state/process.rs` effects log | effect-log predicate for each handler, induction |
| C30 | `start_with_wal`, `handle_wal` | equational |
| C31 | node composition with WAL and crashes | FALSE (stale events): witness; partial: no stale events |
| C32 | `handle_commit` | effect-log predicate |
| C33 | `handle_signed_proposal`, `hash_with_block` | FALSE: witness; partial |
| C34 | effect log | predicate on each QC trigger |
| C35 | State.run guards | effect-log emptiness |
| C36 | filters | invariant of collectors |
| C37 | verify_proposer, ProposalCollector | characterisation |
| C38 | goto_new_height | characterisation |
| C39 | flush / get_height_* | map lemma |
| C40 | handle_new_round | effect-log characterisation |
| C41 | ChokeCollector, check_choke_above_threshold | characterisation |
| C42 | run + get_height | FALSE: witness |
| C43 | N full nodes (`Model/Net`) + faulty validators that may send anything | **FALSE of the code** (findings 1, 14): two full network schedules as witnesses (`C43_false_with_self_unlock`, `C43_false_with_weak_certificates`); partial: proved for all schedules in which certificates that are acted upon have counted weight and no lock is removed by a certificate for the locked block itself |
| C44 | N full nodes with WAL, crashes at every effect, restarts | partial, as C43; invariant: every released vote is justified by its voter's last lock (`Proofs/Agree`, `LockChain`, `NodeLock`, `NodeSound`, `NetInv`) |
| C45 | network of nodes, one round (`Spec/Good`) | invariant of every node along every schedule (`Proofs/Good*`): sent, stored, checked, voted; at delivery a chain proposal ⇒ prevotes ⇒ certificate ⇒ precommits ⇒ certificate ⇒ commit. Faulty validators may send any votes, proposals (not in the leader's name), chokes of the round, outdated messages (`Bearable`). Unrestricted statement FALSE (certificates are believed): witness |
| C46 | start_with_wal | FALSE: witness |
| C47 | serde_hex, serde_multi_hex | induction over bytes |
| C48 | whole node (`Spec/Panic`) | rule-based proof that no handler panics while the authority list is usable (`Proofs/NoPanic`), invariant of the node: usable list, no Stop in any channel, only triggers that cannot end the voting task (`Proofs/NoPanicNode`) |
| C49 | voting state machine (`Spec/Live`) | exact reaction to each kind of live input, characterisation of live inputs (`C49_reacts_iff_live`), catch-up along runs from C01's monotonicity |
| C50 | whole node (`Spec/Check`) | predicates on the State and the contents of every channel kept by all tasks (`Proofs/Prov`): certificates handed to the voting logic, orders it gives and block check answers are for hashes checked since the last start |
| C51 | N full nodes + faulty validators (`Model/Net`, `Spec/Net.EverChecked`) | `NetGen` (every certificate a correct node holds is backed by released votes) + C50 on each node + quorum arithmetic. **FALSE** with the checks the code makes (finding 1; `C51_false_with_weak_certificates`), so partial: `GenuineSchedule` |
| C52 | as C51 | the same invariant covers what is broadcast and transmitted; shows that `GenuineInput` in C43/C44/C51 restricts faulty validators only. partial: chokes of height 0, `GenuineSchedule` |
| C53 | whole network, as C52 | invariants `NetReady` (every lock, event and trigger refers to stored certificates and blocks), `NetOrd` (orders in the queue fit the State's round and its leader) along all schedules; handler-by-handler `Carry`. partial: finding 21, `OrderSchedule` |
| C54 | infinite histories of the whole network (`NetRun`) | by contradiction: a live node that does not leave its round keeps its voting state machine in it (`Halted`), the fair timer loop makes it order a choke again and again (`gnever_stuck`), the order is carried out (C53), the chokes arrive and are stored, the threshold is passed, a choke certificate ends the round. partial: live validators in the same round, and in different rounds if those above the lowest one are not there because of a prevote certificate (their chokes bring the others forward, `catch_up`); with such a certificate it is false (finding 22, `C54_false_rounds_apart`) |
| C55 | Network model: an invariant ties the orders of the voting state machine (round, where from), the stored certificates, the State's reason, the records and the chokes; `Spec.Explains` says what a reason must be. Every step of every task, crashes and restarts (a restart takes the reason from the record). | proved (choke certificates: number of named validators; that they really signed is C20) |
| C56 | network histories with signature schemes given by an `Unforgeable` condition at every end of a verification task | every message taken up was verified against the current list (C21), that list is the one of the height (`StGen.auth`), an accepted aggregated signature names exactly the selected validators (C10); induction over the schedule gives agreement from unforgeable signatures (`C44_agreement_from_signatures_partial`). An ideal scheme shows that the conditions can be met |
| C57 | `Model/Api.lean`: the object with its six piles, the handlers' channel, calls and their results, and the node's tasks behind it | one invariant over histories (accepted = received ++ channel while the run lasts); both inclusions between histories of objects and histories of `Model/Node.lean` (C57_same_histories), so that every theorem about nodes is one about objects; the liveness clause by induction on the number of received messages |
| C58 | `Model/Orphan.lean`: the spawned tasks after the State is gone (events for the State fail) | a measure that every step decreases (starting from the invariant of C48: no pending trigger ends a task); the same invariant shows that two tasks never end, so the last clause is false |
| C59 | network histories; nothing assumed of certificates, votes, chokes or the number of faulty nodes | invariant over schedules: all blocks in `hash_with_block`, in stored proposals of the current height (once their proposer has been checked), in saved locks, own proposals and commits have an origin; a validator asks for a block only at a round it leads; the stores are emptied at a new height. Genuine proposals follow from unforgeable signatures by C21 |
| C60 | one iteration of the State's loop from any state; whole lives | a price for each kind of effect; by cases over every handler (`Cost`), the price of its effects is at most a fixed budget; instantiated with unit prices; summed over lives |
| C61 | sequences of inputs of the State | a broadcast certificate is stored, storage lasts while the height does (micro-steps), a vote of a certified round returns early; the full claim is false: witness with any number of repetitions |
| C62 | Light-client check `LightAccepts` (Spec/Light.lean) over `extract_voters`; invariant "stored votes verify, stored certificates convince" over whole node lives with a fixed verifying scheme `V` (Proofs/Light.lean: `built_convinces` from counting + C10 + aggregation; received ones from C21); conflict-freedom from C44's `cert_agree`. Partial: certificates below the threshold, unverifiable certificates in chokes and early messages excluded (false with them: `C62_false_for_weak_certificates`); the conflict part inherits C44's conditions. |
| C63 | `smr/state_machine.rs` complete as `Smr.run`, from a fresh machine or a restored one | invariant (lock on a block, equal to the proposal, not from the future; NOR in the precommit step) by cases over all reactions; the fourth documented condition is **FALSE** (the proposal of an earlier round stays, finding 25): witness, and a simulation proof that it never matters |
| C64 | `State` loop: caching of future messages, `goto_new_height`, `re_check_*` | invariant over micro-steps: what is cached for a height not reached stays (first vote/proposal of a slot wins, a certificate until another one comes), adopting the height's status sends it to verification; the unrestricted claim is **FALSE** (early messages are cached unverified, finding 26): four witnesses |
| C65 | whole network, several heights | invariant of the network over all schedules: every live node is in the good round of its height (C45's invariant), or has committed and its voting state machine has not yet taken the new height; composed by induction on the heights of the plan; messages may arrive up to four heights early and are then kept until the height is reached (invariant: whatever was taken up early is in a store or already checked); **FALSE** for an early proposal whose proposer does not lead by the current list (witness) |
| C66 | State; histories from the start | invariant: everything in the vote and proposal stores is filed under a height of the window, a round at most ten above those reached, and a validator; counting by injection into a finite product; certificates, blocks, chokes, check results **FALSE** (for every n a flood of n validly signed messages, all kept; by induction on n) |
| C67 | State with its clock (`Model/Clock.lean`: `height_start`, `Instant::now`, `sleep`; durations arbitrary) | erasure: without the clock it is the State model; invariants of the clock over all timed histories; partial: the lower bound and the bounds on pauses are proved, "nobody can prolong it" is false (finding 29, witness) |
| C68 | State with two independent iteration orders (`Shuffle`) | relational (two-run) logic `Bl` over all handlers, with the invariants that pools contain only validators' votes and a voter only once; partial: commits must be answered with a later height, otherwise false (finding 30, witness) |
| C69 | State, one message handled twice (`Repeats`) | every handler is shown idempotent on its own result (`Rep.idem_*`), what the second run does is contained in what the first did and nothing weighty is in it; induction over the histories; with C68 also for different hash orders; a copy that comes later can matter (witness C69_late_copy_can_help) |
| C70 | `proposalsOf` of the log of one node (NodeSys, crashes and restarts as in C31). Invariant (Proofs/Single): the pending orders to enter rounds of the State's height are for ever later rounds, all after the slots in which it has proposed (`NChain`, `Lead`); every proposal is preceded by a saved record of its slot (`Ordered`), which with `StartOk` carries the invariant over restarts. Partial for the same reason as C31: `InSync`; `C70_false_with_stale_orders` is a run in which a node without any fault proposes two blocks for one round (finding 31). |
| C71 | Network of nodes, any subset faulty, no bound on their weight, no assumption on messages (`CalmNet`: only the conditions of C31 on the steps of correct nodes). Evidence (Spec/Blame): signatures on votes and proposals, certificates that outsiders accept (`Convincing` of C62). Proof: C31 and C70 for each correct node of the network, unforgeability, and the intersection of the two sets of signers (weights). Partial because C31 and C70 are: `C71_false_with_stale_orders` is a correct node named by two conflicting certificates. |
| C72 | Node model, whole lives with crashes and restarts. `callsOf` lists the calls of the application in the log. Invariant: calls sorted; the record saved last is never below a call, and if it is at its height it is the record of that very commit; a running State with consensus power is strictly past all calls. Heights alone need nothing but the storage (`C72_heights_in_order`); the rest needs an application that does not fail: `C72_false_after_failed_commit` (the height is handed over again with another proof). |
| C73 | Network model. From agreement per height (C44) and the order of the calls over whole lives with crashes (C72): a chain exists, and the duplicate-free sequences up to K are sorted by height and have the same members, so they are equal. |
| C74 | Node model, whole lives with crashes and restarts. `placesOf` lists the places of the records in the log. Invariant: the list is ordered by `Onward` (a commit is the last record of its height); a running validator is past all of them; the orders that are still queued and the position of the voting machine continue the order (`WChain`), brake timeouts that are armed, expired or queued are for the machine's round or an earlier one (`Brk`). False when the application fails to commit (`C74_false_after_failed_commit`, finding 33). |
| C75 | Node model, whole lives. `heightsOf` lists the heights of the `commit` calls in the log without repetitions. Invariant `Gap.Inv`: the heights applied are all of `h0 … k` below the node's height, and below the height of every record saved (the record of height `k + 1` is written only after the commit call of `k`). With the order of C72 the list is `List.range'`. Consequence in the network: `C73_prefix_partial`. |
| C76 | State: `run_past` (each handler by its first tests); histories: `WithPast`, by induction. Node model: a bisimulation. `SameButOver n m`: the nodes are equal but messages about earlier heights are missing in the queues of `m`. Every step of `n` is a step of `m`, none, or a crash (`Past.step`); every step of `m` is one of `n` after the messages at the front of its queue have been taken up (`Past.back`, which needs that they do not panic: C48). |
| C77 | State, per vote (`Certs.step`): the pool of the slot is that of the kept votes, the kept votes agree with all votes until there is a certificate (`Rel`), counting gives a certificate iff there is a quorum (C12, C13, C14); then induction over the votes. Order: a validator's first vote is his only one. In any company (`KeepsItsRound`): the same relation for every input of a node at its place; every arm keeps the slot's pool except a verified vote handed in and the node's own vote put in by `handle_vote_event` (`Certs.count_step`). |
| C78 | State, per choke (`Leave.step`): the chokes kept for the round are those of the senders seen (`Leave.Kept`), each once; the highest round with a quorum can only be the node's own; an order is given iff there is a quorum (C41's computation of the threshold check). Induction over the chokes; order: the number of distinct senders does not depend on it. In any company (`StaysPut`): every other input leaves the chokes alone and gives no order to leave while the height stays (`Leave.calm`, by the micro-steps); the own choke is put in like the others (`Leave.brake`). |

## 4. Findings (the code disagrees with the property)

1. `parallel.rs` `get_voters` ignores the boolean of `is_above_threshold`: certificates below
   threshold are accepted if the aggregated signature verifies (C19).
2. `handle_signed_choke` feeds the certificate in `choke.from` to the handlers unverified; a choke's
   signature covers only (height, round); choke senders are not checked to be validators (C20, C24, C41).
3. A proposal's PoLC is not checked against the proposal's hash, round, height or threshold (C20).
4. A future-height message is forwarded unverified; if the height advances before it is handled it
   is processed as current without a signature check (C21).
5. `handle_event` ignores the height/round of vote events and signs with the State's current
   position: stale events make a correct node equivocate (C31).
6. `hash_with_block` is overwritten by a later proposal with the same hash but other content;
   `is_full_transaction` is never cleared (C33).
7. In the commit step the SMR still accepts a higher prevote certificate, ContinueRound and brake
   timeouts: a second commit event for a height is possible (C07).
8. `counting_vote` sums u32 weights in u32 (C14); `get_leader` sums in u32 while the node sums in
   u64 (C15).
9. `Status` codec maps `Some(0)` interval / default config to `None` (C23).
10. Decoding a WAL step byte > 4 or an UpdateFrom tag > 2 panics (C25).
11. `Stop` reaches `get_height`, which is `unreachable!` for it (C42).
12. `start_with_wal` overrides `init_height` even with a lower height (C46).
13. The timer casts the round to u32 (C26).
14. **Safety**: `handle_proposal` with a PoLC of a higher round *removes* the lock even when the
    proposal is for the very block the node is locked on. After the next prevote timeout the node is
    unlocked and prevotes any fresh proposal. With one Byzantine validator of four this leads to two
    different blocks committed at one height although all certificates are genuine (C43). The whole
    schedule, at the level of network messages, is `NetDemo.split9`.
15. After a restart from a WAL record whose step is not Propose the timer keeps round 0: its next
    timeouts are those of round 0 and are ignored as stale if the record is of a later round (C27, C30).
16. `Consensus::report_error` is never called: errors of handlers are only logged.
17. If `commit()` answers with a height that is not higher, the authority list is already replaced;
    a list without the node leaves it working for a height it has no vote in (C38).
18. A restart with an authority list that lacks the node skips the WAL; it starts at `init_height` (C46).
19. A restart at the brake step whose choke can not be signed or sent, or at the commit step whose
    commit fails, never resumes the SMR.
20. After every start that recovers the Propose step (also a fresh start without a record, `wal_lost`)
    the SMR informs only the timer of the round, not the State, so its leader never proposes in that
    round: the round always ends by timeout (C45 therefore begins with rounds that were entered).
21. `wal_lost` does not look up the leader of round 0: `leader_address` is still empty, and the votes of
    that round are transmitted to the empty address (C53_false_after_lost_wal).
22. **Deadlock of the view change.** A node in a round below r that gets a prevote certificate of round r
    (and has checked the block) locks the block and goes to round r+1, not r, and precommits there
    (state_machine.rs:331-357). Nodes in round r precommit in r, and after their timeouts choke round r; the
    first node chokes round r+1 with the prevote certificate of r as reason. The nodes in r have already
    used that certificate and do not move; chokes of a lower round are dropped by the first node. With four
    equal validators and one crash neither round reaches the threshold of three chokes: the height never
    ends although every message between the three live validators arrives (C54_false_rounds_apart).
    Besides, choke thresholds count addresses, not weight.
23. **Leaked tasks.** If the future of `run()` is dropped or panics (e.g. on `Stop`, finding of C42), the voting state
    machine and the timer stay for ever: the timer holds a sender of the state machine's channel and the
    state machine one of the timer's (C58_tasks_never_end). They fall asleep after a bounded number of steps. If
    one of them did end (only a `Stop` could do that), the other one would spin: both loops treat a closed channel as
    an error, log it and poll again (smr/mod.rs:47-58, timer.rs:103-109).

24. **Repeated broadcasts.** `handle_signed_vote` (process.rs:842-950) looks for the certificate of the vote's round,
    but then counts the votes of the node's *own* round (process.rs:898). A vote for a later round (up to ten ahead) of
    the same height therefore makes a node whose own round is already certified build, store and broadcast that
    certificate again, and so does every copy of the same vote: one message of one validator, sent n times, causes n broadcasts of every
    receiver (C61_false_for_later_votes). C60 bounds it to one per message.

25. **Stale proposal.** The comment of `check` (state_machine.rs:544-548) says that in the propose step the proposal hash is empty unless there is a lock; `goto_next_round` does not
    clear it (C63_false_stale_proposal). It has no effect (C63_stale_proposal_harmless). The body of `check` is commented out; its tests would never fail (C63_checks_hold_partial).
26. **Early messages are trusted.** Messages of later heights go to the cache without a signature check (`handle` in process.rs forwards them to the verified queue). The first vote
    per voter and the first proposal per round win, a certificate replaces the one before and makes the node refuse votes of its slot. Anyone who can send to a node before its height starts
    can therefore suppress genuine early votes, proposals and certificates (C64_forged_vote_displaces, …). Votes and proposals of validators that join with the next height are refused while
    the node is behind (C64_newcomer_refused). Liveness only: nothing forged is counted, since everything is verified when the height starts.
27. **Early proposals of a new leader are lost.** A node at height h judges a proposal for h+1 by its list of height h. If the list changes with the commit of h, a fast validator's genuine
    proposal is dropped by the slower ones, which then cannot take part in the height and cannot commit (C65_early_proposal_lost), although all messages arrived.
28. **Memory can be flooded.** A leader's second and later proposals of a round are refused, but their blocks are put into `hash_with_block` first; certificates of the current height are stored for
    every round, and one validator's signature suffices for them (finding 1); chokes of non-validators are stored; `is_full_transaction` is never cleared. Each is unbounded within one height (C66).
29. **Anybody can set the pacing clock.** `handle_signed_proposal` sets `height_start` before the proposal is filtered (process.rs:605), and a proposal of a
    future height gets there without its signature being checked (finding 4). An outsider who names the leader of a far height as proposer
    can make the next leader wait a full block interval after every commit (C67_false_clock_set_by_outsider). Copies of the current proposal do the same.
30. **A stale answer to a commit makes vote counting random.** `handle_commit` installs the validator list of the answer even when its height is not later
    (process.rs:802-803), while the votes stay in the pool (`goto_new_height` returns early). `counting_vote` fails with an error on the first voter that is not in the list,
    so whether a quorum is noticed depends on which entry of the hash table comes first (C68_false_after_stale_answer).
31. **A correct leader can propose twice in one round.** `State::handle_event` does not compare the height of a `NewRoundInfo` order with its own
    (process.rs:262-280). An order to enter round r that was given at an earlier height and is taken up after a status was adopted makes the node enter round r of
    the new height at once, and propose there if it is the leader and holds the certificate that the order refers to; when the proper order for that round follows, it asks
    the application for a block again and proposes it for the same height and round (C70_false_with_stale_orders).
    With this and the stale orders of C31 a node without any fault signs conflicting messages, so they prove nothing about who is faulty (C71_false_with_stale_orders).
    No status from outside is needed for the stale orders of C31: a node that has fallen behind and gets the precommit certificate of one round together with the prevote certificate of a later round for the
    same block commits, and then signs, for the next height, the precommit that was ordered for the last one (C31_false_in_ordinary_runs; neither crash, nor faulty validator, nor failing storage or application).
32. **A failed commit is repeated only by accident, and then with another proof.** If the application fails to commit, the State stays at the height with an error in the log
    (process.rs:746-817) and the voting machine stays in its commit step; nothing repeats the commit. `handle_prevote` and `handle_continue_round` do not look at the commit step for
    later rounds (state_machine.rs:273-360, 119-139), so certificates of a later round lead the machine out of it, and the height is handed over again with the new certificate
    (C72_false_after_failed_commit). Until then the node votes again at a height it has decided.
33. **After a failed commit a brake timeout overwrites the record of the commit.** `handle_brake_timeout` does not look at the step (state_machine.rs:104-119), so a brake timeout that is still
    running when a block is decided makes the State save a brake record (process.rs:707-744). If the commit failed, the record of the commit is lost: a restart then does not commit the decided block again, as it
    would have done from the commit record (C74_false_after_failed_commit).

## 5. Trusted base

* Lean 4.33.0 kernel; axioms at most `propext`, `Classical.choice`, `Quot.sound`. `AXIOMS.md` (generated by `tools/gen_axioms.py`) lists the axioms
  of every property theorem.
* Exactly what is modelled: `COVERAGE.md` (generated by `tools/gen_coverage.py` from the citations in the model) lists every function of `/repo/src`
  with the definitions that model it, or why there is none.
* The reading of the Rust code (no code was run), including the listed simplifications.
* External crates as modelled: `rlp` 0.5, `bit-vec`, `prime_tools`, `futures` unbounded channels
  (FIFO, reliable), std collections, `rand_pcg`/`rand_core` (random digits are an arbitrary stream).
* Not modelled: cryptography itself, tokio scheduling beyond arbitrary interleaving of handler
  calls, wall-clock time beyond `height_start` and the leader's pause (C67), logging, tracing, memory and performance, serde derive output.
