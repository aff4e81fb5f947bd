{
 "C23": [
  "partial",
  "The full claim is false of the code (finding F1): C23_full_claim_false and C23_forgery; the partial theorem holds when the carried key is the registered one."
 ],
 "C10": [
  "partial",
  "The full claim is false of the code (finding F4): C10_full_claim_false; the partial theorem covers token balances for all events, native balances except growth lifts, lower tables except reverts."
 ],
 "C21": [
  "partial",
  "The full claim is false of the code (finding F2): C21_full_claim_false. Proved: supermajority of pairwise different verified signatures of authors over the hash of the request's parameters; distinct authors only under the assumption that no author has two valid signatures over one hash."
 ],
 "C29": [
  "proved",
  "Proved for histories with a fixed schedule period (and more: changes allowed while nothing is pending); C29_schedule_change_while_pending_overlaps shows the condition is needed."
 ],
 "C38": [
  "partial",
  "False as stated: with 50 checked events waiting the event is dropped from both queues (C38_full_queue_drops_event); proved whenever a place is free."
 ],
 "C39": [
  "partial",
  "False for events resubmitted after a successful challenge: old challenges are kept and count again, even against the challenger itself (C39_old_challenges_count_again); everything else is proved."
 ],
 "C70": [
  "partial",
  "False of the code: a 64-byte inner node verifies as a leaf (C70_inner_node_verifies_as_leaf), and a string whose hash is half of a 64-byte leaf verifies too (C70_half_of_long_leaf_verifies); the partial theorem holds when no leaf and no datum is 64 bytes long."
 ],
 "C64": [
  "partial",
  "False for signed_register_chain_handler: its payload has no nonce, so it can be replayed after the handler moved away (C64_registration_can_be_replayed, finding A1); proved for handler changes and checkpoints."
 ],
 "C67": [
  "partial",
  "False for time and transaction limited adjustments, whose inner fee is not checked (C67_limited_fee_unchecked, finding P1); proved for permanent ones."
 ],
 "C65": [
  "proved",
  "The refund is skipped when the payer's balance is zero after dispatch; C65_charge_exact says so explicitly."
 ],
 "C27": [
  "partial",
  "The full claim is false of the code (finding F7): C27_full_claim_false (cancelled listings panic on a short operation id topic), C27_narrow_integers_truncated, C27_long_reference_cut. Proved: exact values for every ABI log, oversized amounts rejected, malformed logs rejected for all other kinds, accepted amounts/keys/addresses are always the whole word."
 ],
 "C71": [
  "partial",
  "The full claim is false of the code (findings X1, X2): C71_full_claim_false, C71_unparsable_log_blocks_range. Proved: soundness, one event per transaction, precedence of bridge events, completeness when all logs parse and the event is alone in its transaction."
 ],
 "C43": [
  "partial",
  "The cached bottom total is never below the sum and exceeds it by exactly the amounts decreases of bottom nominations took; equality is false (counterexample C43_bottom_total_can_be_wrong: decrease_bottom_nomination does not reduce the total), and the system total is too low after such a collator leaves (C43_total_too_low_after_exit)."
 ],
 "C46": [
  "partial",
  "Holds when the collator's request list has room and the nominator stays above the minimum total (or leaves its only nomination). False otherwise: with a full list the call succeeds and records nothing (C46_full_list_records_nothing, C46_successful_call_without_request); a recorded revoke can be refused at execution (C46_recorded_revoke_refused)."
 ],
 "C47": [
  "partial",
  "Exact totals are proved for nominate, bond-extra and unbond over several collators. 'Every collator gets at least A div n' is false of the code (C47_share_below_average, C47_share_can_be_zero); exact error bounds are proved instead. With an empty target list the call succeeds and bonds nothing (C47_no_collators_bonds_nothing)."
 ],
 "C48": [
  "partial",
  "The exact bound is false of the code: shares are rounded to the nearest unit, so three units can be paid where two were set aside (C48_full_claim_false), and with a minimum collator stake of zero both a collator and a leaving nominator get the whole reward (C48_zero_minimum_pays_twice). Proved for all histories with a positive minimum: the excess is at most half a unit per payment and per collator; the same for growth payouts."
 ],
 "C50": [
  "partial",
  "Proved: no period is sent twice, only closed periods are sent, no period is completely paid out twice. False of the code: a growth payout that fails on the way keeps the payments already made without marking the period, so lifting it again pays them again (C50_full_claim_false)."
 ],
 "C87": [
  "partial",
  "Proved except that root votes, ends of voting and root challenges carry no Summary instance id: with two Summary instances (the test runtime has two) their signatures are interchangeable (C87_full_claim_false)."
 ],
 "C89": [
  "partial",
  "Set bounds, joining, leaving, failures and exclusivity proved for all histories. The key claims are proved only for histories without key rotation in whose sessions every author is active or disabled; they are false otherwise (C89_rotation_breaks_removal, C89_stray_key_after_failure, C89_author_without_key, C89_stale_lookup)."
 ],
 "C91": [
  "partial",
  "Both iff characterisations proved for all receipts. The claim that the worker never crashes is false: a log without topics in front of the event panics it (C91_anonymous_log_crashes); the depth claim holds only when the receipt is not newer than the block number fetched before it (C91_newer_block_counts_as_final); a receipt without a block number counts as final too (C91_receipt_without_block_counts_as_final)."
 ],
 "C92": [
  "partial",
  "Proved for events that are old enough for the challenger. A false result about a younger event escapes: the validator notes it as validated and never returns to it (C92_early_result_is_never_challenged)."
 ],
 "C93": [
  "partial",
  "Progress of the head of the queue, persistence and delivery proved. That no event blocks others is false: an event whose data the chain calls malformed, or on which the worker crashes, stays at the head forever and nothing after it is ever checked (C93_stuck_head_blocks_all with C93_malformed_data_is_stuck, C93_anonymous_log_is_stuck, C93_crash_stops_processing); ready results are processed newest first (C93_newest_first)."
 ],
 "C94": [
  "partial",
  "Validated roots and honest proposals are true (C94_validated_root_is_true_partial, C94_honest_proposals_are_true_partial), for votes cast on this very history and a schedule not changed while a root is pending. The unrestricted claim is false: votes name only the root id, so honest votes cast on one fork validate a false root on another (C94_votes_do_not_bind_the_hash); a proposal names only its last block and ingress number, so after a schedule change an honest proposal is taken for another range (C94_honest_proposal_for_another_range); and an expired vote has the honest proposer and approvers reported (C94_expired_vote_blames_honest_authors)."
 ],
 "C95": [
  "proved",
  "C95_single_author_slot_is_stuck shows the two-author hypothesis of the challenge part is needed."
 ],
 "C98": [
  "partial",
  "The full claim is false of the code: additional transactions (queued by the administrator) in blocks after the end of the active range are seen or not depending on when a node looks, so honest nodes on one chain vote for different partitions and the range can stand still for good (C98_additional_transactions_split_votes); an unreadable bridge log also stops a range (C71_unparsable_log_blocks_range). Proved for ranges whose additional transactions are in blocks up to the range end and whose logs can be read; the votes are executed without other calls in between."
 ],
 "C101": [
  "partial",
  "Proved while the author set does not change and at most 100 confirmations are needed. The full claim is false of the code (finding B6): add_confirmation returns early when the confirmations collected already suffice, so a proof that comes to suffice because the author set shrank is never completed (C101_stuck_forever, C101_shrunk_author_set_stuck)."
 ],
 "C103": [
  "partial",
  "The full claim is false of the code (finding N1): the digest of a sign request is read with H256::from_slice before the token is checked, which panics on any other length than 32 (C103_unauthenticated_panic). Proved: such requests still change nothing and are not served; all other unauthorised requests get an error."
 ],
 "C104": [
  "partial",
  "Proved without restarts and when Ethereum calls a nonce too low only if it is (no gaps: when it never does). The full claim is false of the code: N2 (C104_restart_reuses_a_nonce), N3 (C104_a_dropped_transaction_blocks_later_ones)."
 ],
 "C105": [
  "partial",
  "Proved from version 4 (the version before this one). From version 3 or before proved for the queue, for active transactions and for active lowers nobody has confirmed; the rest is false of the code (finding G1, C105_version_3_lower_can_be_misread)."
 ],
 "C108": [
  "partial",
  "Proved for both halves of the bridge and up to the offence handler, under the extra hypothesis that the additional (administrator-queued) transactions of a range are in blocks up to its end. Without it the claim is false of the code: C108_additional_transactions_report_honest_authors (finding D3). Truth of outcomes is a hypothesis on honest authors' calls (the Ethereum contract is outside the model)."
 ],
 "C110": [
  "partial",
  "Everything but the last sentence is proved; the list of authors can become empty (finding R1, C110_authors_can_vanish). Proved instead: the queue is empty only if no selected collator has session keys."
 ],
 "C112": [
  "partial",
  "Everything but the last sentence is proved, with the exact condition (Ready) under which a confirmed registration completes; the last sentence is false of the code (finding V7, C112_registration_can_get_stuck)."
 ],
 "C113": [
  "partial",
  "Proved when the originating pallet takes the result. The full claim is false of the code (finding V7): C113_refused_success_blocks_the_bridge, C113_unready_registration_blocks_the_bridge."
 ],
 "C114": [
  "partial",
  "Delivery at most once is proved for what the main instance has on record, migration progress when it has accepted none of the records; the rest is false of the code (findings D4, D5: C114_unmoved_records_are_not_seen, C114_refused_records_hold_up_the_rest)."
 ],
 "C115": [
  "partial",
  "The pool part is proved in full (a tag is shared exactly by reports on the same matter; nothing is displaced); that only an author's own report keeps one out is proved for votes, ends of votes, challenges and the bridge's reports, and false of the code for the others (findings Q1-Q3)."
 ],
 "C116": [
  "partial",
  "Proved for votes, ends of votes, slot advances, check results and event processing; false of the code for recorded roots, slot challenges, event challenges and all reports to the bridge (counterexample theorems; finding Q4)."
 ],
 "C117": [
  "partial",
  "Proved for votes, ends of votes, roots, slot challenges, check results, event processing, votes on events and blocks, corroborations, and for hashes within their attempt; confirmations only change the state for the same message. False of the code for hashes across attempts, corroborations after setting the instance, votes after a restart of discovery, and the 51st challenge of an event (counterexample theorems; findings Q5, Q6)."
 ],
 "C118": [
  "partial",
  "False of the code for growth lifts: an accepted lift can create more than was lifted (collator shares are rounded up: lift of 8 creates 9), and a rejected one keeps the treasury's share (C118_full_claim_false). Proved: exactness for every other step and history, the exact amount for accepted growth lifts, and bounds for histories with growth."
 ],
 "C123": [
  "partial",
  "False of the code: the relay chain's own token is configured as the native currency (IsConcrete<RelayLocation> on Balances) with the relay chain as its reserve, so a reserve transfer of n relay tokens creates n native tokens in every state (C123_full_claim_false). Proved: sibling parachains create nothing; a message's exact effect; histories."
 ],
 "C126": [
  "partial",
  "The summary half is proved in full; for Ethereum events the reports are proved to be exactly checker or recorded challengers, but the challenges recorded may stem from an earlier check: C126_checker_reported_without_a_challenge shows the claim false of the code."
 ],
 "C127": [
  "partial",
  "Proved: announced for everybody named for the first time under the kind in the session. The full claim is false of the code: C127_second_offence_is_not_announced."
 ],
 "C139": [
  "partial",
  "Proved when no address listed before the answering one fails to answer, in one of the three attempts. The full claim is false of the code: C139_silent_first_address_hides_all (one dead address at the front of the list keeps the node from ever voting)."
 ],
 "C140": [
  "partial",
  "Proved when nothing goes wrong with the bridges before it in the round. The full claim is false of the code: C140_failing_bridge_stops_the_rest."
 ]
}