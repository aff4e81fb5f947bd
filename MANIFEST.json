{
 "claims": [
  {
   "property": "C01",
   "status": "proved",
   "theorems": [
    "Verif.TokenManager.C01_supply_step",
    "Verif.TokenManager.C01_supply_history",
    "Verif.TokenManager.C01_failed_step_changes_no_balance",
    "Verif.TokenManager.C01_balances_fit"
   ],
   "note": ""
  },
  {
   "property": "C02",
   "status": "proved",
   "theorems": [
    "Verif.TokenManager.C02_nonce_step",
    "Verif.TokenManager.C02_never_replayed"
   ],
   "note": ""
  },
  {
   "property": "C03",
   "status": "proved",
   "theorems": [
    "Verif.TokenManager.C03_only_authorised_debits",
    "Verif.TokenManager.C03_only_authorised_native_debits",
    "Verif.TokenManager.C03_agenda_only_by_sender"
   ],
   "note": ""
  },
  {
   "property": "C04",
   "status": "proved",
   "theorems": [
    "Verif.TokenManager.C04_transfer_injective",
    "Verif.TokenManager.C04_lower_injective",
    "Verif.TokenManager.C04_domain_separated",
    "Verif.TokenManager.C04_wrapping_unambiguous"
   ],
   "note": ""
  },
  {
   "property": "C05",
   "status": "proved",
   "theorems": [
    "Verif.TokenManager.C05_one_stage",
    "Verif.TokenManager.C05_fresh_id",
    "Verif.TokenManager.C05_spent_forever"
   ],
   "note": ""
  },
  {
   "property": "C06",
   "status": "proved",
   "theorems": [
    "Verif.TokenManager.C06_settled_at_most_once",
    "Verif.TokenManager.C06_revert_credits_once"
   ],
   "note": ""
  },
  {
   "property": "C07",
   "status": "proved",
   "theorems": [
    "Verif.TokenManager.C07_burn_matches_proof",
    "Verif.TokenManager.C07_pending_has_origin"
   ],
   "note": ""
  },
  {
   "property": "C08",
   "status": "proved",
   "theorems": [
    "Verif.TokenManager.C08_roundtrip",
    "Verif.TokenManager.C08_injective"
   ],
   "note": ""
  },
  {
   "property": "C09",
   "status": "proved",
   "theorems": [
    "Verif.TokenManager.C09_growth_split"
   ],
   "note": ""
  },
  {
   "property": "C10",
   "status": "partial",
   "theorems": [
    "Verif.TokenManager.C10_rejected_event_partial",
    "Verif.TokenManager.C10_full_claim_false"
   ],
   "note": "The full claim is false of the code (finding F4): C10_full_claim_false; the partial theorem covers token balances for all events, native balances except growth lifts, lower tables except reverts."
  },
  {
   "property": "C11",
   "status": "proved",
   "theorems": [
    "Verif.TokenManager.C11_disabled_blocks_lowers",
    "Verif.TokenManager.C11_reenable_restores"
   ],
   "note": ""
  },
  {
   "property": "C12",
   "status": "proved",
   "theorems": [
    "Verif.EthBridge.C12_event_handled_at_most_once",
    "Verif.EthBridge.C12_never_again",
    "Verif.EthBridge.C12_admin_cannot_requeue_accepted"
   ],
   "note": ""
  },
  {
   "property": "C13",
   "status": "proved",
   "theorems": [
    "Verif.EthBridge.C13_partition_needs_quorum",
    "Verif.EthBridge.C13_events_only_from_approved_partitions",
    "Verif.EthBridge.C13_one_live_vote"
   ],
   "note": ""
  },
  {
   "property": "C14",
   "status": "proved",
   "theorems": [
    "Verif.EthBridge.C14_approved_partitions_are_contiguous",
    "Verif.EthBridge.C14_next_range_starts_after_end",
    "Verif.EthBridge.C14_position_changes_only_on_approval",
    "Verif.EthBridge.C14_approved_is_active"
   ],
   "note": ""
  },
  {
   "property": "C15",
   "status": "proved",
   "theorems": [
    "Verif.EthBridge.C15_vote_is_aligned_and_lags",
    "Verif.EthBridge.C15_selected_block",
    "Verif.EthBridge.C15_one_block_vote_each"
   ],
   "note": ""
  },
  {
   "property": "C16",
   "status": "proved",
   "theorems": [
    "Verif.EthBridge.C16_partition_shape",
    "Verif.EthBridge.C16_no_event_lost",
    "Verif.EthBridge.C16_partitions_are_the_sorted_input"
   ],
   "note": ""
  },
  {
   "property": "C17",
   "status": "proved",
   "theorems": [
    "Verif.BridgeTx.C17_fifo_and_loss_free"
   ],
   "note": ""
  },
  {
   "property": "C18",
   "status": "proved",
   "theorems": [
    "Verif.BridgeTx.C18_ids_strictly_increase"
   ],
   "note": ""
  },
  {
   "property": "C19",
   "status": "proved",
   "theorems": [
    "Verif.BridgeTx.C19_outcome_needs_quorum",
    "Verif.BridgeTx.C19_author_counted_once",
    "Verif.BridgeTx.C19_success_only_by_corroboration"
   ],
   "note": ""
  },
  {
   "property": "C20",
   "status": "proved",
   "theorems": [
    "Verif.BridgeTx.C20_each_send_request_answered_at_most_once"
   ],
   "note": ""
  },
  {
   "property": "C21",
   "status": "partial",
   "theorems": [
    "Verif.BridgeTx.C21_ready_proof_partial",
    "Verif.BridgeTx.C21_distinct_if_signatures_unique_partial",
    "Verif.BridgeTx.C21_full_claim_false"
   ],
   "note": "The full claim is false of the code (finding F2): C21_full_claim_false. Proved: supermajority of pairwise different verified signatures of authors over the hash of the request's parameters; distinct authors only under the assumption that no author has two valid signatures over one hash."
  },
  {
   "property": "C22",
   "status": "proved",
   "theorems": [
    "Verif.BridgeTx.C22_hash_write_once",
    "Verif.BridgeTx.C22_hash_final_for_attempt"
   ],
   "note": ""
  },
  {
   "property": "C23",
   "status": "partial",
   "theorems": [
    "Verif.Avn.C23_authenticated_partial",
    "Verif.Avn.C23_account_is_validator",
    "Verif.Avn.C23_forgery",
    "Verif.Avn.C23_full_claim_false"
   ],
   "note": "The full claim is false of the code (finding F1): C23_full_claim_false and C23_forgery; the partial theorem holds when the carried key is the registered one."
  },
  {
   "property": "C24",
   "status": "proved",
   "theorems": [
    "Verif.Avn.C24_quorum_is_ceil_third",
    "Verif.Avn.C24_supermajorities_intersect",
    "Verif.Avn.C24_supermajorities_disjoint_at_four",
    "Verif.Avn.C24_quorum_meets_larger_than_supermajority",
    "Verif.Avn.C24_no_overflow"
   ],
   "note": ""
  },
  {
   "property": "C25",
   "status": "proved",
   "theorems": [
    "Verif.Avn.C25_rotation_is_fair",
    "Verif.Avn.C25_assigned_is_validator",
    "Verif.Avn.C25_primary_is_validator",
    "Verif.Avn.C25_panics_at_256",
    "Verif.Avn.C25_block_primary_rotates"
   ],
   "note": ""
  },
  {
   "property": "C26",
   "status": "proved",
   "theorems": [
    "Verif.Avn.C26_accepted_vote",
    "Verif.Avn.C26_each_voter_counted_once",
    "Verif.Avn.C26_outcome_iff",
    "Verif.Avn.C26_removed_validator_cannot_vote"
   ],
   "note": ""
  },
  {
   "property": "C27",
   "status": "partial",
   "theorems": [
    "Verif.Parsing.C27_parse_exact",
    "Verif.Parsing.C27_oversized_amount_rejected",
    "Verif.Parsing.C27_malformed_rejected",
    "Verif.Parsing.C27_cancel_listing_partial",
    "Verif.Parsing.C27_accepted_values_are_the_words",
    "Verif.Parsing.C27_lift_amount_is_the_logged_amount",
    "Verif.Parsing.C27_full_claim_false",
    "Verif.Parsing.C27_narrow_integers_truncated",
    "Verif.Parsing.C27_long_reference_cut",
    "Verif.Parsing.C27_signatures_determine_kind"
   ],
   "note": "The full claim is false of the code (finding F7): C27_full_claim_false (cancelled listings panic on a short operation id topic), C27_narrow_integers_truncated, C27_long_reference_cut. Proved: exact values for every ABI log, oversized amounts rejected, malformed logs rejected for all other kinds, accepted amounts/keys/addresses are always the whole word."
  },
  {
   "property": "C28",
   "status": "proved",
   "theorems": [
    "Verif.Avn.C28_worker_runs_strictly_increasing",
    "Verif.Avn.C28_new_block_runs"
   ],
   "note": ""
  },
  {
   "property": "C29",
   "status": "proved",
   "theorems": [
    "Verif.Summary.C29_validated_roots_tile",
    "Verif.Summary.C29_every_block_covered_once",
    "Verif.Summary.C29_only_the_next_range",
    "Verif.Summary.C29_schedule_change_while_pending_overlaps"
   ],
   "note": "Proved for histories with a fixed schedule period (and more: changes allowed while nothing is pending); C29_schedule_change_while_pending_overlaps shows the condition is needed."
  },
  {
   "property": "C30",
   "status": "proved",
   "theorems": [
    "Verif.Summary.C30_validated_needs_quorum",
    "Verif.Summary.C30_validated_is_permanent",
    "Verif.Summary.C30_validated_range_not_reproposed",
    "Verif.Summary.C30_no_votes_unless_pending",
    "Verif.Summary.C30_pending_has_session"
   ],
   "note": ""
  },
  {
   "property": "C31",
   "status": "proved",
   "theorems": [
    "Verif.Summary.C31_finalised_only_after_success",
    "Verif.Summary.C31_notifications"
   ],
   "note": ""
  },
  {
   "property": "C32",
   "status": "proved",
   "theorems": [
    "Verif.Summary.C32_slot_advance",
    "Verif.Summary.C32_advance_slot_call"
   ],
   "note": ""
  },
  {
   "property": "C33",
   "status": "proved",
   "theorems": [
    "Verif.Summary.C33_challenge_sound",
    "Verif.Summary.C33_challenge_not_repeatable"
   ],
   "note": ""
  },
  {
   "property": "C34",
   "status": "proved",
   "theorems": [
    "Verif.Summary.C34_periods_within_bounds"
   ],
   "note": ""
  },
  {
   "property": "C35",
   "status": "proved",
   "theorems": [
    "Verif.Summary.C35_decided_once",
    "Verif.Summary.C35_acceptance_sources",
    "Verif.Summary.C35_admin_needs_review"
   ],
   "note": ""
  },
  {
   "property": "C36",
   "status": "proved",
   "theorems": [
    "Verif.EthEvents.C36_effect_only_after_window",
    "Verif.EthEvents.C36_checks_come_from_validators"
   ],
   "note": ""
  },
  {
   "property": "C37",
   "status": "proved",
   "theorems": [
    "Verif.EthEvents.C37_in_at_most_one_queue",
    "Verif.EthEvents.C37_applied_at_most_once",
    "Verif.EthEvents.C37_applied_is_recorded",
    "Verif.EthEvents.C37_processed_is_permanent",
    "Verif.EthEvents.C37_only_new_events_are_added",
    "Verif.EthEvents.C37_counters_increase",
    "Verif.EthEvents.C37_queued_counters_unique",
    "Verif.EthEvents.C37_processing_records",
    "Verif.EthEvents.Example.C37_processed_transaction_can_be_queued"
   ],
   "note": ""
  },
  {
   "property": "C38",
   "status": "partial",
   "theorems": [
    "Verif.EthEvents.C38_checked_event_is_kept_partial",
    "Verif.EthEvents.Example.C38_full_queue_drops_event"
   ],
   "note": "False as stated: with 50 checked events waiting the event is dropped from both queues (C38_full_queue_drops_event); proved whenever a place is free."
  },
  {
   "property": "C39",
   "status": "partial",
   "theorems": [
    "Verif.EthEvents.C39_challengers_distinct_bounded_partial",
    "Verif.EthEvents.C39_challengers_are_other_validators_partial",
    "Verif.EthEvents.C39_challenge_threshold",
    "Verif.EthEvents.C39_challenges_are_signed_by_the_challenger",
    "Verif.EthEvents.C39_checker_is_not_a_challenger_partial",
    "Verif.EthEvents.C39_large_sets_cannot_challenge",
    "Verif.EthEvents.Example.C39_old_challenges_count_again"
   ],
   "note": "False for events resubmitted after a successful challenge: old challenges are kept and count again, even against the challenger itself (C39_old_challenges_count_again); everything else is proved."
  },
  {
   "property": "C40",
   "status": "proved",
   "theorems": [
    "Verif.Staking.C40_step_refines",
    "Verif.Staking.C40_run_refines",
    "Verif.Staking.C40_run_from_refines",
    "Verif.Staking.C40_bound",
    "Verif.Staking.C40_any_search"
   ],
   "note": ""
  },
  {
   "property": "C41",
   "status": "proved",
   "theorems": [
    "Verif.Staking.C41_lists_stay_partitioned_and_ordered",
    "Verif.Staking.C41_lists_agree_with_nominators",
    "Verif.Staking.C41_candidate_or_nominator"
   ],
   "note": ""
  },
  {
   "property": "C42",
   "status": "proved",
   "theorems": [
    "Verif.Staking.C42_counted_stake",
    "Verif.Staking.C42_pool_is_the_active_candidates",
    "Verif.Staking.C42_candidate_lock"
   ],
   "note": ""
  },
  {
   "property": "C43",
   "status": "partial",
   "theorems": [
    "Verif.Staking.C43_bottom_total_partial",
    "Verif.Staking.C43_released_on_exit_partial",
    "Verif.Staking.C43_bottom_total_can_be_wrong",
    "Verif.Staking.C43_total_too_low_after_exit"
   ],
   "note": "The cached bottom total is never below the sum and exceeds it by exactly the amounts decreases of bottom nominations took; equality is false (counterexample C43_bottom_total_can_be_wrong: decrease_bottom_nomination does not reduce the total), and the system total is too low after such a collator leaves (C43_total_too_low_after_exit)."
  },
  {
   "property": "C44",
   "status": "proved",
   "theorems": [
    "Verif.Staking.C44_lock_is_sum_of_bonds",
    "Verif.Staking.C44_every_bond_at_least_minimum",
    "Verif.Staking.C44_decrease_below_minimum_refused",
    "Verif.Staking.C44_pending_is_scheduled",
    "Verif.Staking.C44_executed_decrease_leaves_minimum"
   ],
   "note": ""
  },
  {
   "property": "C45",
   "status": "proved",
   "theorems": [
    "Verif.Staking.C45_bond_shrinks_only_when_due",
    "Verif.Staking.C45_request_in_list_since_scheduled",
    "Verif.Staking.C45_era_monotone",
    "Verif.Staking.C45_release_needs_matured_request",
    "Verif.Staking.C45_cancel_removes",
    "Verif.Staking.C45_nothing_to_execute",
    "Verif.Staking.C45_candidate_bond_shrinks_only_when_due",
    "Verif.Staking.C45_candidate_request_since_scheduled",
    "Verif.Staking.C45_exit_since_scheduled"
   ],
   "note": ""
  },
  {
   "property": "C46",
   "status": "partial",
   "theorems": [
    "Verif.Staking.C46_recorded_when_room_partial",
    "Verif.Staking.C46_full_list_records_nothing",
    "Verif.Staking.C46_executable_after_delay_partial",
    "Verif.Staking.C46_revoke_all_records_or_skips_partial",
    "Verif.Staking.C46_successful_call_without_request",
    "Verif.Staking.C46_recorded_revoke_refused"
   ],
   "note": "Holds when the collator's request list has room and the nominator stays above the minimum total (or leaves its only nomination). False otherwise: with a full list the call succeeds and records nothing (C46_full_list_records_nothing, C46_successful_call_without_request); a recorded revoke can be refused at execution (C46_recorded_revoke_refused)."
  },
  {
   "property": "C47",
   "status": "partial",
   "theorems": [
    "Verif.Staking.C47_split_bonds_exactly",
    "Verif.Staking.C47_no_collators_bonds_nothing",
    "Verif.Staking.C47_bond_extra_bonds_exactly",
    "Verif.Staking.C47_regular_share_bounds_partial",
    "Verif.Staking.C47_one_collator_gets_remainder_partial",
    "Verif.Staking.C47_share_below_average",
    "Verif.Staking.C47_share_can_be_zero",
    "Verif.Staking.C47_unbond_schedules_exactly"
   ],
   "note": "Exact totals are proved for nominate, bond-extra and unbond over several collators. 'Every collator gets at least A div n' is false of the code (C47_share_below_average, C47_share_can_be_zero); exact error bounds are proved instead. With an empty target list the call succeeds and bonds nothing (C47_no_collators_bonds_nothing)."
  },
  {
   "property": "C48",
   "status": "partial",
   "theorems": [
    "Verif.Staking.C48_era_payouts_are_bounded_partial",
    "Verif.Staking.C48_growth_payouts_are_bounded_partial",
    "Verif.Staking.C48_full_claim_false",
    "Verif.Staking.C48_zero_minimum_pays_twice"
   ],
   "note": "The exact bound is false of the code: shares are rounded to the nearest unit, so three units can be paid where two were set aside (C48_full_claim_false), and with a minimum collator stake of zero both a collator and a leaving nominator get the whole reward (C48_zero_minimum_pays_twice). Proved for all histories with a positive minimum: the excess is at most half a unit per payment and per collator; the same for growth payouts."
  },
  {
   "property": "C49",
   "status": "proved",
   "theorems": [
    "Verif.Staking.C49_locked_payouts_are_backed",
    "Verif.Staking.C49_an_era_locks_exactly_the_rest",
    "Verif.Staking.C49_nothing_is_locked_otherwise"
   ],
   "note": ""
  },
  {
   "property": "C50",
   "status": "partial",
   "theorems": [
    "Verif.Staking.C50_sent_in_order",
    "Verif.Staking.C50_outstanding_periods_are_sent",
    "Verif.Staking.C50_sent_at_most_once",
    "Verif.Staking.C50_only_complete_periods_are_sent",
    "Verif.Staking.C50_completed_at_most_once_partial",
    "Verif.Staking.C50_completed_payouts_are_logged",
    "Verif.Staking.C50_full_claim_false"
   ],
   "note": "Proved: no period is sent twice, only closed periods are sent, no period is completely paid out twice. False of the code: a growth payout that fails on the way keeps the payments already made without marking the period, so lifting it again pays them again (C50_full_claim_false)."
  },
  {
   "property": "C51",
   "status": "proved",
   "theorems": [
    "Verif.Staking.C51_selected_are_the_top_backed",
    "Verif.Staking.C51_only_a_new_era_changes_the_selection",
    "Verif.Staking.C51_genesis_selection"
   ],
   "note": ""
  },
  {
   "property": "C52",
   "status": "proved",
   "theorems": [
    "Verif.Staking.C52_eras_advance_by_one_and_when_due",
    "Verif.Staking.C52_a_due_era_starts",
    "Verif.Staking.C52_era_starts_increase"
   ],
   "note": ""
  },
  {
   "property": "C53",
   "status": "proved",
   "theorems": [
    "Verif.Validators.C53_bounds",
    "Verif.Validators.C53_no_removal_at_minimum",
    "Verif.Validators.C53_no_registration_at_maximum"
   ],
   "note": ""
  },
  {
   "property": "C54",
   "status": "proved",
   "theorems": [
    "Verif.Validators.C54_bijection",
    "Verif.Validators.C54_keys_not_shared",
    "Verif.Validators.C54_no_stray_keys"
   ],
   "note": ""
  },
  {
   "property": "C55",
   "status": "proved",
   "theorems": [
    "Verif.Validators.C55_joins_only_when_confirmed",
    "Verif.Validators.C55_leaves_only_when_confirmed",
    "Verif.Validators.C55_confirmed_registration_joins",
    "Verif.Validators.C55_confirmed_removal_leaves",
    "Verif.Validators.C55_failed_registration_leaves_no_trace",
    "Verif.Validators.C55_one_in_flight",
    "Verif.Validators.C55_one_change_per_transaction",
    "Verif.Validators.C55_staking_refusal_blocks",
    "Verif.Validators.C55_no_request_while_change_open",
    "Verif.Validators.C55_session_waits_for_members",
    "Verif.Validators.C55_session_completes_removal"
   ],
   "note": ""
  },
  {
   "property": "C56",
   "status": "proved",
   "theorems": [
    "Verif.Nft.C56_owner_changes_only_when_authorised",
    "Verif.Nft.C56_transfer_closes_listing",
    "Verif.Nft.C56_only_owner_lists"
   ],
   "note": ""
  },
  {
   "property": "C57",
   "status": "proved",
   "theorems": [
    "Verif.Nft.C57_no_authorisation_executed_twice",
    "Verif.Nft.C57_executed_was_signed"
   ],
   "note": ""
  },
  {
   "property": "C58",
   "status": "proved",
   "theorems": [
    "Verif.Nft.C58_ids_and_references_unique",
    "Verif.Nft.C58_existing_references_differ",
    "Verif.Nft.C58_reference_taken_iff_minted"
   ],
   "note": ""
  },
  {
   "property": "C59",
   "status": "proved",
   "theorems": [
    "Verif.Nft.C59_supply_never_exceeded",
    "Verif.Nft.C59_mint_only_while_listed"
   ],
   "note": ""
  },
  {
   "property": "C60",
   "status": "proved",
   "theorems": [
    "Verif.Nft.C60_royalties_bounded"
   ],
   "note": ""
  },
  {
   "property": "C61",
   "status": "proved",
   "theorems": [
    "Verif.Proxy.C61_dispatch_only_if_authorised",
    "Verif.Proxy.C61_unsupported_or_foreign_relayer_no_effect",
    "Verif.Proxy.C61_unlisted_call_no_effect",
    "Verif.Proxy.C61_invalid_signature_no_effect"
   ],
   "note": ""
  },
  {
   "property": "C62",
   "status": "proved",
   "theorems": [
    "Verif.Proxy.C62_payment_nonces_consecutive",
    "Verif.Proxy.C62_payments_are_authorised",
    "Verif.Proxy.C62_authorisation_used_once",
    "Verif.Proxy.C62_fee_exact",
    "Verif.Proxy.C62_fee_kept_when_inner_fails",
    "Verif.Proxy.C62_failed_fee_aborts"
   ],
   "note": ""
  },
  {
   "property": "C63",
   "status": "proved",
   "theorems": [
    "Verif.Anchor.C63_one_handler_per_chain",
    "Verif.Anchor.C63_chain_ids_consecutive",
    "Verif.Anchor.C63_checkpoint_ids_consecutive",
    "Verif.Anchor.C63_checkpoints_permanent",
    "Verif.Anchor.C63_announced_is_stored",
    "Verif.Anchor.C63_origin_used_once",
    "Verif.Anchor.C63_checkpoint_by_handler_for_fee"
   ],
   "note": ""
  },
  {
   "property": "C64",
   "status": "partial",
   "theorems": [
    "Verif.Anchor.C64_signed_call_executed_once_partial",
    "Verif.Anchor.C64_executed_was_signed",
    "Verif.Anchor.C64_registration_can_be_replayed"
   ],
   "note": "False for signed_register_chain_handler: its payload has no nonce, so it can be replayed after the handler moved away (C64_registration_can_be_replayed, finding A1); proved for handler changes and checkpoints."
  },
  {
   "property": "C65",
   "status": "proved",
   "theorems": [
    "Verif.Fees.C65_discount_accurate",
    "Verif.Fees.C65_charge_exact",
    "Verif.Fees.C65_fee_needs_funds",
    "Verif.Fees.C65_charges_fair",
    "Verif.Fees.C65_fixed_fee_can_raise"
   ],
   "note": "The refund is skipped when the payer's balance is zero after dispatch; C65_charge_exact says so explicitly."
  },
  {
   "property": "C66",
   "status": "proved",
   "theorems": [
    "Verif.Fees.C66_transaction_based_exact",
    "Verif.Fees.C66_time_based_exact"
   ],
   "note": ""
  },
  {
   "property": "C67",
   "status": "partial",
   "theorems": [
    "Verif.Fees.C67_stored_valid_partial",
    "Verif.Fees.C67_limited_fee_unchecked"
   ],
   "note": "False for time and transaction limited adjustments, whose inner fee is not checked (C67_limited_fee_unchecked, finding P1); proved for permanent ones."
  },
  {
   "property": "C68",
   "status": "proved",
   "theorems": [
    "Verif.Offence.C68_punished_at_most_once",
    "Verif.Offence.C68_slash_only_when_enabled",
    "Verif.Offence.C68_named_offender_is_reported",
    "Verif.Offence.C68_recorded_outcome",
    "Verif.Offence.C68_reported_while_disabled_is_never_slashed"
   ],
   "note": ""
  },
  {
   "property": "C69",
   "status": "proved",
   "theorems": [
    "Verif.Merkle.C69_paths_verify",
    "Verif.Merkle.C69_verified_data_is_a_leaf"
   ],
   "note": ""
  },
  {
   "property": "C70",
   "status": "partial",
   "theorems": [
    "Verif.Merkle.C70_only_leaves_verify_partial",
    "Verif.Merkle.C70_inner_node_verifies_as_leaf",
    "Verif.Merkle.C70_half_of_long_leaf_verifies"
   ],
   "note": "False of the code: a 64-byte inner node verifies as a leaf (C70_inner_node_verifies_as_leaf), and a string whose hash is half of a 64-byte leaf verifies too (C70_half_of_long_leaf_verifies); the partial theorem holds when no leaf and no datum is 64 bytes long."
  },
  {
   "property": "C71",
   "status": "partial",
   "theorems": [
    "Verif.EventsClient.C71_reports_only_real_events",
    "Verif.EventsClient.C71_wanted_events_reported_partial",
    "Verif.EventsClient.C71_bridge_event_overrides_transfer",
    "Verif.EventsClient.C71_unparsable_log_blocks_range",
    "Verif.EventsClient.C71_full_claim_false",
    "Verif.EventsClient.C71_transfer_reported_as_logged"
   ],
   "note": "The full claim is false of the code (findings X1, X2): C71_full_claim_false, C71_unparsable_log_blocks_range. Proved: soundness, one event per transaction, precedence of bridge events, completeness when all logs parse and the event is alone in its transaction."
  },
  {
   "property": "C72",
   "status": "proved",
   "theorems": [
    "Verif.ProxyCalls.C72_payload_determines_call",
    "Verif.ProxyCalls.C72_message_determines_call",
    "Verif.ProxyCalls.C72_payment_payload_injective",
    "Verif.ProxyCalls.C72_payment_is_not_a_call",
    "Verif.ProxyCalls.C72_verified_means_signed"
   ],
   "note": ""
  },
  {
   "property": "C73",
   "status": "proved",
   "theorems": [
    "Verif.Nft.C73_provenance_permanent"
   ],
   "note": ""
  },
  {
   "property": "C74",
   "status": "proved",
   "theorems": [
    "Verif.EventsClient.C74_honest_authors_agree",
    "Verif.EventsClient.C74_vote_is_what_was_found",
    "Verif.EventsClient.C74_events_are_of_the_range"
   ],
   "note": ""
  },
  {
   "property": "C75",
   "status": "proved",
   "theorems": [
    "Verif.Staking.C75_block_hooks_never_panic",
    "Verif.Staking.C75_genesis_never_panics",
    "Verif.Staking.C75_ledger_is_reachable"
   ],
   "note": ""
  },
  {
   "property": "C76",
   "status": "proved",
   "theorems": [
    "Verif.Staking.C76_nobody_is_paid_twice",
    "Verif.Staking.C76_collators_have_one_turn",
    "Verif.Staking.C76_payments_are_late",
    "Verif.Staking.C76_only_authors_are_rewarded",
    "Verif.Staking.C76_amounts_of_a_turn",
    "Verif.Staking.C76_snapshots_are_final",
    "Verif.Staking.C76_snapshots_add_up"
   ],
   "note": ""
  },
  {
   "property": "C77",
   "status": "proved",
   "theorems": [
    "Verif.Staking.C77_one_collator_per_block",
    "Verif.Staking.C77_everybody_has_a_turn",
    "Verif.Staking.C77_nothing_is_paid_afterwards"
   ],
   "note": ""
  },
  {
   "property": "C78",
   "status": "proved",
   "theorems": [
    "Verif.EthBridge.C78_world_is_the_fold",
    "Verif.EthBridge.C78_outcome_is_truthful",
    "Verif.EthBridge.C78_history_is_the_fold",
    "Verif.EthBridge.C78_approved_events_are_applied",
    "Verif.EthBridge.C78_filter_is_core"
   ],
   "note": ""
  },
  {
   "property": "C79",
   "status": "proved",
   "theorems": [
    "Verif.BridgeTx.C79_active_request_is_prepared_or_kept",
    "Verif.BridgeTx.C79_message_in_every_state",
    "Verif.BridgeTx.C79_publish_records_its_arguments",
    "Verif.BridgeTx.C79_only_accepted_requests",
    "Verif.BridgeTx.C79_confirmation_recorded_iff"
   ],
   "note": ""
  },
  {
   "property": "C80",
   "status": "proved",
   "theorems": [
    "Verif.BridgeTx.C80_notifications_are_delivered",
    "Verif.BridgeTx.C80_decided_is_recorded",
    "Verif.BridgeTx.C80_settled_record"
   ],
   "note": ""
  },
  {
   "property": "C81",
   "status": "proved",
   "theorems": [
    "Verif.Nft.C81_valid_single_mint_succeeds",
    "Verif.Nft.C81_batch_id_is_fresh",
    "Verif.Nft.C81_batch_mint_refused_only_for_same_index",
    "Verif.Nft.C81_fresh_reference_can_be_minted"
   ],
   "note": ""
  },
  {
   "property": "C82",
   "status": "proved",
   "theorems": [
    "Verif.Staking.C82_stored_growth_is_the_sum",
    "Verif.Staking.C82_published_growth_is_the_sum",
    "Verif.Staking.C82_booked_stake_is_the_stake_at_the_start",
    "Verif.Staking.C82_eras_are_counted_once"
   ],
   "note": ""
  },
  {
   "property": "C83",
   "status": "proved",
   "theorems": [
    "Verif.Summary.C83_offences_are_exactly_those_due",
    "Verif.Summary.C83_slot_offences_name_the_holder"
   ],
   "note": ""
  },
  {
   "property": "C84",
   "status": "proved",
   "theorems": [
    "Verif.Staking.C84_stake_is_covered",
    "Verif.Staking.C84_overdraft_is_refused"
   ],
   "note": ""
  },
  {
   "property": "C85",
   "status": "proved",
   "theorems": [
    "Verif.Eip712.C85_message_is_bound",
    "Verif.Eip712.C85_runtime_requests_are_signable",
    "Verif.Eip712.C85_lower_is_signable",
    "Verif.Eip712.C85_requests_do_not_share_signatures",
    "Verif.Eip712.C85_lower_is_not_a_request",
    "Verif.Eip712.C85_salt_is_not_bound",
    "Verif.Eip712.C85_wrong_length_panics",
    "Verif.Eip712.C85_usable_instances",
    "Verif.Eip712.C85_active_requests_do_not_share_signatures"
   ],
   "note": ""
  },
  {
   "property": "C86",
   "status": "proved",
   "theorems": [
    "Verif.Calldata.C86_every_argument_is_read",
    "Verif.Calldata.C86_selector",
    "Verif.Calldata.C86_calldata_is_injective",
    "Verif.Calldata.C86_contract_sees_the_request",
    "Verif.Calldata.C86_confirmations_in_order",
    "Verif.Calldata.C86_lower_proof",
    "Verif.Calldata.C86_corroborate_query",
    "Verif.Calldata.C86_tx_hash_is_read",
    "Verif.Calldata.C86_only_hashes_are_read",
    "Verif.Calldata.C86_status_is_read",
    "Verif.Calldata.C86_hash_valid_iff",
    "Verif.Calldata.C86_corroboration_says",
    "Verif.Calldata.C86_corroboration_reported"
   ],
   "note": ""
  },
  {
   "property": "C87",
   "status": "partial",
   "theorems": [
    "Verif.Payloads.C87_signed_once_partial",
    "Verif.Payloads.C87_accepted_action_was_signed_partial",
    "Verif.Payloads.C87_full_claim_false"
   ],
   "note": "Proved except that root votes, ends of voting and root challenges carry no Summary instance id: with two Summary instances (the test runtime has two) their signatures are interchangeable (C87_full_claim_false)."
  },
  {
   "property": "C88",
   "status": "proved",
   "theorems": [
    "Verif.BridgeTx.C88_worker_acts_with_cause",
    "Verif.BridgeTx.C88_request_completes",
    "Verif.BridgeTx.C88_published_request_completes",
    "Verif.BridgeTx.C88_lower_completes",
    "Verif.BridgeTx.C88_single_author_stuck"
   ],
   "note": ""
  },
  {
   "property": "C89",
   "status": "partial",
   "theorems": [
    "Verif.Authors.C89_bounds",
    "Verif.Authors.C89_next_session",
    "Verif.Authors.C89_joins_only_when_confirmed",
    "Verif.Authors.C89_leaves_only_when_confirmed",
    "Verif.Authors.C89_confirmed_registration_joins",
    "Verif.Authors.C89_confirmed_removal_leaves",
    "Verif.Authors.C89_failed_request",
    "Verif.Authors.C89_one_in_flight",
    "Verif.Authors.C89_refused_while_open",
    "Verif.Authors.C89_keys_partial",
    "Verif.Authors.C89_removal_names_the_key_partial",
    "Verif.Authors.C89_rotation_breaks_removal",
    "Verif.Authors.C89_stray_key_after_failure",
    "Verif.Authors.C89_author_without_key",
    "Verif.Authors.C89_stale_lookup"
   ],
   "note": "Set bounds, joining, leaving, failures and exclusivity proved for all histories. The key claims are proved only for histories without key rotation in whose sessions every author is active or disabled; they are false otherwise (C89_rotation_breaks_removal, C89_stray_key_after_failure, C89_author_without_key, C89_stale_lookup)."
  },
  {
   "property": "C90",
   "status": "proved",
   "theorems": [
    "Verif.Deposits.C90_only_recorded_steps",
    "Verif.Deposits.C90_each_transaction_once",
    "Verif.Deposits.C90_recorded_transaction_has_no_effect",
    "Verif.Deposits.C90_supply_is_backed_by_distinct_deposits",
    "Verif.Deposits.C90_bridge_path_needs_quorum",
    "Verif.Deposits.C90_legacy_path_needs_window",
    "Verif.Deposits.C90_accepted_means_carried_out",
    "Verif.Deposits.C90_one_record"
   ],
   "note": ""
  },
  {
   "property": "C91",
   "status": "partial",
   "theorems": [
    "Verif.EventCheck.C91_ok_iff",
    "Verif.EventCheck.C91_invalid_iff",
    "Verif.EventCheck.C91_panics_iff",
    "Verif.EventCheck.C91_confirmations_partial",
    "Verif.EventCheck.C91_no_receipt",
    "Verif.EventCheck.C91_anonymous_log_crashes",
    "Verif.EventCheck.C91_newer_block_counts_as_final",
    "Verif.EventCheck.C91_hex_texts",
    "Verif.EventCheck.C91_status_texts",
    "Verif.EventCheck.C91_receipt_without_block_counts_as_final"
   ],
   "note": "Both iff characterisations proved for all receipts. The claim that the worker never crashes is false: a log without topics in front of the event panics it (C91_anonymous_log_crashes); the depth claim holds only when the receipt is not newer than the block number fetched before it (C91_newer_block_counts_as_final); a receipt without a block number counts as final too (C91_receipt_without_block_counts_as_final)."
  },
  {
   "property": "C92",
   "status": "partial",
   "theorems": [
    "Verif.EventCheck.C92_reaches_the_first_unvalidated",
    "Verif.EventCheck.C92_challenges_exactly_the_false_partial",
    "Verif.EventCheck.C92_honest_result_is_true",
    "Verif.EventCheck.C92_challenged_result_has_no_effect",
    "Verif.EventCheck.C92_early_result_is_never_challenged"
   ],
   "note": "Proved for events that are old enough for the challenger. A false result about a younger event escapes: the validator notes it as validated and never returns to it (C92_early_result_is_never_challenged)."
  },
  {
   "property": "C93",
   "status": "partial",
   "theorems": [
    "Verif.EventCheck.C93_blocking_data_partial",
    "Verif.EventCheck.C93_genuine_event_gets_checked_partial",
    "Verif.EventCheck.C93_pending_until_processed",
    "Verif.EventCheck.C93_ready_event_is_delivered",
    "Verif.EventCheck.C93_stuck_head_blocks_all",
    "Verif.EventCheck.C93_malformed_data_is_stuck",
    "Verif.EventCheck.C93_anonymous_log_is_stuck",
    "Verif.EventCheck.C93_crash_stops_processing",
    "Verif.EventCheck.C93_newest_first"
   ],
   "note": "Progress of the head of the queue, persistence and delivery proved. That no event blocks others is false: an event whose data the chain calls malformed, or on which the worker crashes, stays at the head forever and nothing after it is ever checked (C93_stuck_head_blocks_all with C93_malformed_data_is_stuck, C93_anonymous_log_is_stuck, C93_crash_stops_processing); ready results are processed newest first (C93_newest_first)."
  },
  {
   "property": "C94",
   "status": "partial",
   "theorems": [
    "Verif.SummaryWorker.C94_validated_root_is_true_partial",
    "Verif.SummaryWorker.C94_honest_proposals_are_true_partial",
    "Verif.SummaryWorker.C94_votes_do_not_bind_the_hash",
    "Verif.SummaryWorker.C94_honest_proposal_for_another_range",
    "Verif.SummaryWorker.C94_expired_vote_blames_honest_authors"
   ],
   "note": "Validated roots and honest proposals are true (C94_validated_root_is_true_partial, C94_honest_proposals_are_true_partial), for votes cast on this very history and a schedule not changed while a root is pending. The unrestricted claim is false: votes name only the root id, so honest votes cast on one fork validate a false root on another (C94_votes_do_not_bind_the_hash); a proposal names only its last block and ingress number, so after a schedule change an honest proposal is taken for another range (C94_honest_proposal_for_another_range); and an expired vote has the honest proposer and approvers reported (C94_expired_vote_blames_honest_authors)."
  },
  {
   "property": "C95",
   "status": "proved",
   "theorems": [
    "Verif.SummaryWorker.C95_slot_validator_proposes",
    "Verif.SummaryWorker.C95_worker_votes",
    "Verif.SummaryWorker.C95_quorum_of_approvals_validates",
    "Verif.SummaryWorker.C95_expired_vote_is_ended",
    "Verif.SummaryWorker.C95_slot_validator_advances",
    "Verif.SummaryWorker.C95_stuck_slot_is_challenged",
    "Verif.SummaryWorker.C95_single_author_slot_is_stuck"
   ],
   "note": "C95_single_author_slot_is_stuck shows the two-author hypothesis of the challenge part is needed."
  },
  {
   "property": "C96",
   "status": "proved",
   "theorems": [
    "Verif.Discovery.C96_handled_events_are_genuine"
   ],
   "note": ""
  },
  {
   "property": "C97",
   "status": "proved",
   "theorems": [
    "Verif.Discovery.C97_no_event_is_lost"
   ],
   "note": ""
  },
  {
   "property": "C98",
   "status": "partial",
   "theorems": [
    "Verif.Discovery.C98_no_second_vote",
    "Verif.Discovery.C98_start_block_is_selected",
    "Verif.Discovery.C98_partition_is_settled_partial",
    "Verif.Discovery.C98_additional_transactions_split_votes"
   ],
   "note": "The full claim is false of the code: additional transactions (queued by the administrator) in blocks after the end of the active range are seen or not depending on when a node looks, so honest nodes on one chain vote for different partitions and the range can stand still for good (C98_additional_transactions_split_votes); an unreadable bridge log also stops a range (C71_unparsable_log_blocks_range). Proved for ranges whose additional transactions are in blocks up to the range end and whose logs can be read; the votes are executed without other calls in between."
  },
  {
   "property": "C99",
   "status": "proved",
   "theorems": [
    "Verif.EndToEnd.C99_delivered_events_are_on_ethereum",
    "Verif.EndToEnd.C99_lift_is_credited_once",
    "Verif.EndToEnd.C99_every_event_is_applied_as_logged",
    "Verif.EndToEnd.C99_supply_is_backed_by_ethereum",
    "Verif.EndToEnd.C99_prediction_market_lift_is_not_credited"
   ],
   "note": ""
  },
  {
   "property": "C100",
   "status": "proved",
   "theorems": [
    "Verif.LowerFlow.C100_pending_iff_requested",
    "Verif.LowerFlow.C100_never_lost",
    "Verif.LowerFlow.C100_can_be_requested_again",
    "Verif.LowerFlow.C100_every_proof_was_burned",
    "Verif.LowerFlow.C100_claimable_is_signed"
   ],
   "note": ""
  },
  {
   "property": "C101",
   "status": "partial",
   "theorems": [
    "Verif.LowerFlow.C101_enough_confirmations_complete_partial",
    "Verif.LowerFlow.C101_stuck_forever",
    "Verif.LowerFlow.C101_shrunk_author_set_stuck"
   ],
   "note": "Proved while the author set does not change and at most 100 confirmations are needed. The full claim is false of the code (finding B6): add_confirmation returns early when the confirmations collected already suffice, so a proof that comes to suffice because the author set shrank is never completed (C101_stuck_forever, C101_shrunk_author_set_stuck)."
  },
  {
   "property": "C102",
   "status": "proved",
   "theorems": [
    "Verif.Service.C102_signatures_are_authorised",
    "Verif.Service.C102_transactions_are_authorised",
    "Verif.Service.C102_authorisations_are_specific",
    "Verif.Service.C102_one_transaction_per_request",
    "Verif.Service.C102_own_signing_requests_are_served",
    "Verif.Service.C102_own_transactions_are_sent",
    "Verif.Service.C102_tokens_can_be_replayed"
   ],
   "note": ""
  },
  {
   "property": "C103",
   "status": "partial",
   "theorems": [
    "Verif.Service.C103_unauthorised_transactions_are_refused",
    "Verif.Service.C103_unauthorised_signing_is_refused_partial",
    "Verif.Service.C103_unauthenticated_panic",
    "Verif.Service.C103_reading_changes_nothing"
   ],
   "note": "The full claim is false of the code (finding N1): the digest of a sign request is read with H256::from_slice before the token is checked, which panics on any other length than 32 (C103_unauthenticated_panic). Proved: such requests still change nothing and are not served; all other unauthorised requests get an error."
  },
  {
   "property": "C104",
   "status": "partial",
   "theorems": [
    "Verif.Service.C104_accepted_nonces_increase_partial",
    "Verif.Service.C104_accepted_nonces_have_no_gaps_partial",
    "Verif.Service.C104_a_dropped_transaction_blocks_later_ones",
    "Verif.Service.C104_restart_reuses_a_nonce"
   ],
   "note": "Proved without restarts and when Ethereum calls a nonce too low only if it is (no gaps: when it never does). The full claim is false of the code: N2 (C104_restart_reuses_a_nonce), N3 (C104_a_dropped_transaction_blocks_later_ones)."
  },
  {
   "property": "C105",
   "status": "partial",
   "theorems": [
    "Verif.Migration.C105_upgrade_keeps_bridge_requests",
    "Verif.Migration.C105_extended_lower_is_the_same_lower",
    "Verif.Migration.C105_upgrade_is_idempotent",
    "Verif.Migration.C105_upgrade_from_version_3_partial",
    "Verif.Migration.C105_version_3_lower_can_be_misread"
   ],
   "note": "Proved from version 4 (the version before this one). From version 3 or before proved for the queue, for active transactions and for active lowers nobody has confirmed; the rest is false of the code (finding G1, C105_version_3_lower_can_be_misread)."
  },
  {
   "property": "C106",
   "status": "proved",
   "theorems": [
    "Verif.Migration.C106_upgrade_keeps_lowers",
    "Verif.Migration.C106_token_upgrade_is_idempotent",
    "Verif.Migration.C106_upgrade_indexes_author_keys"
   ],
   "note": ""
  },
  {
   "property": "C107",
   "status": "proved",
   "theorems": [
    "Verif.BridgeOffence.C107_contradicting_votes_are_reported",
    "Verif.BridgeOffence.C107_only_outcomes_are_reported",
    "Verif.BridgeOffence.C107_votes_stay_recorded",
    "Verif.BridgeOffence.C107_punished_only_if_named",
    "Verif.BridgeOffence.C107_named_is_recorded",
    "Verif.BridgeOffence.C107_reports_are_announced",
    "Verif.BridgeOffence.C107_punished_once_per_registration",
    "Verif.BridgeOffence.C107_reregistered_account_is_punished_again",
    "Verif.BridgeOffence.C107_contrary_event_votes_are_reported",
    "Verif.BridgeOffence.C107_only_processing_reports"
   ],
   "note": ""
  },
  {
   "property": "C108",
   "status": "partial",
   "theorems": [
    "Verif.BridgeOffence.C108_truthful_never_reported",
    "Verif.BridgeOffence.C108_honest_never_punished_partial",
    "Verif.BridgeOffence.C108_honest_voters_not_reported_partial",
    "Verif.BridgeOffence.C108_additional_transactions_report_honest_authors"
   ],
   "note": "Proved for both halves of the bridge and up to the offence handler, under the extra hypothesis that the additional (administrator-queued) transactions of a range are in blocks up to its end. Without it the claim is false of the code: C108_additional_transactions_report_honest_authors (finding D3). Truth of outcomes is a hypothesis on honest authors' calls (the Ethereum contract is outside the model)."
  },
  {
   "property": "C109",
   "status": "proved",
   "theorems": [
    "Verif.Membership.C109_validators_are_the_staying_candidates",
    "Verif.Membership.C109_leaving_candidates_are_the_confirmed_removals",
    "Verif.Membership.C109_bonds_are_locked",
    "Verif.Membership.C109_confirmed_removal_is_carried_out",
    "Verif.Membership.C109_due_exit_takes_place",
    "Verif.Membership.C109_candidates_leave_only_by_removal"
   ],
   "note": ""
  },
  {
   "property": "C110",
   "status": "partial",
   "theorems": [
    "Verif.Membership.C110_authors_were_queued_partial",
    "Verif.Membership.C110_authors_are_distinct",
    "Verif.Membership.C110_session_keys_have_one_owner",
    "Verif.Membership.C110_queue_is_empty_only_without_keys_partial",
    "Verif.Membership.C110_authors_can_vanish"
   ],
   "note": "Everything but the last sentence is proved; the list of authors can become empty (finding R1, C110_authors_can_vanish). Proved instead: the queue is empty only if no selected collator has session keys."
  },
  {
   "property": "C111",
   "status": "proved",
   "theorems": [
    "Verif.Membership.C111_authors_are_bonded",
    "Verif.Membership.C111_removed_validators_stop_authoring",
    "Verif.Membership.C111_author_without_ethereum_key",
    "Verif.Membership.C111_without_eligible_candidates"
   ],
   "note": ""
  },
  {
   "property": "C112",
   "status": "partial",
   "theorems": [
    "Verif.Membership.C112_deposit_is_the_requested",
    "Verif.Membership.C112_confirmed_registration_joins_partial",
    "Verif.Membership.C112_otherwise_refused",
    "Verif.Membership.C112_waiting_blocks_other_changes",
    "Verif.Membership.C112_requests_are_checked",
    "Verif.Membership.C112_registration_can_get_stuck",
    "Verif.Membership.C112_a_nominator_may_register"
   ],
   "note": "Everything but the last sentence is proved, with the exact condition (Ready) under which a confirmed registration completes; the last sentence is false of the code (finding V7, C112_registration_can_get_stuck)."
  },
  {
   "property": "C113",
   "status": "partial",
   "theorems": [
    "Verif.Membership.C113_refused_success_blocks_the_bridge",
    "Verif.Membership.C113_corroborated_request_leaves_partial",
    "Verif.Membership.C113_only_unready_registrations_are_refused",
    "Verif.Membership.C113_corroborated_failure_is_settled",
    "Verif.Membership.C113_unready_registration_blocks_the_bridge"
   ],
   "note": "Proved when the originating pallet takes the result. The full claim is false of the code (finding V7): C113_refused_success_blocks_the_bridge, C113_unready_registration_blocks_the_bridge."
  },
  {
   "property": "C114",
   "status": "partial",
   "theorems": [
    "Verif.TwoBridges.C114_delivered_at_most_once_partial",
    "Verif.TwoBridges.C114_no_record_is_lost",
    "Verif.TwoBridges.C114_second_instance_needs_the_network_of_the_main",
    "Verif.TwoBridges.C114_records_are_moved_partial",
    "Verif.TwoBridges.C114_nothing_moves_otherwise",
    "Verif.TwoBridges.C114_unmoved_records_are_not_seen",
    "Verif.TwoBridges.C114_refused_records_hold_up_the_rest"
   ],
   "note": "Delivery at most once is proved for what the main instance has on record, migration progress when it has accepted none of the records; the rest is false of the code (findings D4, D5: C114_unmoved_records_are_not_seen, C114_refused_records_hold_up_the_rest)."
  },
  {
   "property": "C115",
   "status": "partial",
   "theorems": [
    "Verif.Pool.C115_votes_come_first",
    "Verif.Pool.C115_same_tag_iff",
    "Verif.Pool.C115_never_displaced",
    "Verif.Pool.C115_taken_unless_same_matter",
    "Verif.Pool.C115_held_up_only_by_own_partial",
    "Verif.Pool.C115_one_report_per_matter",
    "Verif.Pool.C115_full_claim_false",
    "Verif.Pool.C115_votes_of_two_instances_collide",
    "Verif.Pool.C115_copies_fill_the_pool"
   ],
   "note": "The pool part is proved in full (a tag is shared exactly by reports on the same matter; nothing is displaced); that only an author's own report keeps one out is proved for votes, ends of votes, challenges and the bridge's reports, and false of the code for the others (findings Q1-Q3)."
  },
  {
   "property": "C116",
   "status": "partial",
   "theorems": [
    "Verif.Summary.C116_vote",
    "Verif.Summary.C116_end",
    "Verif.Summary.C116_advance",
    "Verif.Summary.C116_full_claim_false_roots",
    "Verif.Summary.C116_full_claim_false_slot_challenges",
    "Verif.BridgeTx.C116_full_claim_false_bridge",
    "Verif.EthEvents.C116_check_result",
    "Verif.EthEvents.C116_process",
    "Verif.EthEvents.C116_full_claim_false_event_challenges",
    "Verif.EthBridge.C116_events_partial",
    "Verif.EthBridge.C116_full_claim_false_events",
    "Verif.EthBridge.C116_blocks_partial"
   ],
   "note": "Proved for votes, ends of votes, slot advances, check results and event processing; false of the code for recorded roots, slot challenges, event challenges and all reports to the bridge (counterexample theorems; finding Q4)."
  },
  {
   "property": "C117",
   "status": "partial",
   "theorems": [
    "Verif.Summary.C117_vote",
    "Verif.Summary.C117_end",
    "Verif.Summary.C117_record",
    "Verif.Summary.C117_slot_challenge",
    "Verif.BridgeTx.C117_corroboration",
    "Verif.BridgeTx.C117_hash_partial",
    "Verif.BridgeTx.C117_full_claim_false_hash",
    "Verif.BridgeTx.C117_full_claim_false_corroboration_instance",
    "Verif.BridgeTx.C117_confirmation_partial",
    "Verif.EthEvents.C117_check_result",
    "Verif.EthEvents.C117_process",
    "Verif.EthEvents.C117_event_challenge_partial",
    "Verif.EthEvents.C117_full_claim_false_event_challenges",
    "Verif.EthBridge.C117_events",
    "Verif.EthBridge.C117_blocks",
    "Verif.EthBridge.C117_full_claim_false_events_restart"
   ],
   "note": "Proved for votes, ends of votes, roots, slot challenges, check results, event processing, votes on events and blocks, corroborations, and for hashes within their attempt; confirmations only change the state for the same message. False of the code for hashes across attempts, corroborations after setting the instance, votes after a restart of discovery, and the 51st challenge of an event (counterexample theorems; findings Q5, Q6)."
  },
  {
   "property": "C118",
   "status": "partial",
   "theorems": [
    "Verif.Ledger.C118_supply_step",
    "Verif.Ledger.C118_growth_step_partial",
    "Verif.Ledger.C118_accepted_growth",
    "Verif.Ledger.C118_repeated_growth",
    "Verif.Ledger.C118_supply_history",
    "Verif.Ledger.C118_supply_with_growth_partial",
    "Verif.Ledger.C118_full_claim_false"
   ],
   "note": "False of the code for growth lifts: an accepted lift can create more than was lifted (collator shares are rounded up: lift of 8 creates 9), and a rejected one keeps the treasury's share (C118_full_claim_false). Proved: exactness for every other step and history, the exact amount for accepted growth lifts, and bounds for histories with growth."
  },
  {
   "property": "C119",
   "status": "proved",
   "theorems": [
    "Verif.Ledger.C119_stake_is_covered",
    "Verif.Ledger.C119_staking_history"
   ],
   "note": ""
  },
  {
   "property": "C120",
   "status": "proved",
   "theorems": [
    "Verif.Ledger.C120_only_the_payer_pays",
    "Verif.Ledger.C120_staking_calls_move_nothing",
    "Verif.Ledger.C120_signed_transfer_needs_signature"
   ],
   "note": ""
  },
  {
   "property": "C121",
   "status": "proved",
   "theorems": [
    "Verif.Xcm.C121_only_the_senders_accounts_pay",
    "Verif.Xcm.C121_stake_is_covered"
   ],
   "note": ""
  },
  {
   "property": "C122",
   "status": "proved",
   "theorems": [
    "Verif.Xcm.C122_accounts_distinct",
    "Verif.Xcm.C122_never_root",
    "Verif.Xcm.C122_root_calls_refused"
   ],
   "note": ""
  },
  {
   "property": "C123",
   "status": "partial",
   "theorems": [
    "Verif.Xcm.C123_message_partial",
    "Verif.Xcm.C123_siblings_create_nothing",
    "Verif.Xcm.C123_relay_creates_deposits",
    "Verif.Xcm.C123_history_partial",
    "Verif.Xcm.C123_full_claim_false"
   ],
   "note": "False of the code: the relay chain's own token is configured as the native currency (IsConcrete<RelayLocation> on Balances) with the relay chain as its reserve, so a reserve transfer of n relay tokens creates n native tokens in every state (C123_full_claim_false). Proved: sibling parachains create nothing; a message's exact effect; histories."
  },
  {
   "property": "C124",
   "status": "proved",
   "theorems": [
    "Verif.Price.C124_price_exact",
    "Verif.Price.C124_monotone",
    "Verif.Price.C124_correction_is_a_refund",
    "Verif.Price.C124_bounds",
    "Verif.Price.C124_sender_pays"
   ],
   "note": ""
  },
  {
   "property": "C125",
   "status": "proved",
   "theorems": [
    "Verif.OffenceBook.C125_punished_only_if_reported",
    "Verif.OffenceBook.C125_punished_once_per_registration",
    "Verif.OffenceBook.C125_reported_is_recorded",
    "Verif.OffenceBook.C125_report_after_registration_is_lost",
    "Verif.OffenceBook.C125_old_offence_after_registration"
   ],
   "note": ""
  },
  {
   "property": "C126",
   "status": "partial",
   "theorems": [
    "Verif.OffenceBook.C126_log_reports_partial",
    "Verif.OffenceBook.C126_summary_reports_are_due",
    "Verif.OffenceBook.C126_checker_reported_without_a_challenge",
    "Verif.OffenceBook.C126_bridge_outcome_reports",
    "Verif.OffenceBook.C126_bridge_event_reports",
    "Verif.OffenceBook.C126_bridge_reports_only_then"
   ],
   "note": "The summary half is proved in full; for Ethereum events the reports are proved to be exactly checker or recorded challengers, but the challenges recorded may stem from an earlier check: C126_checker_reported_without_a_challenge shows the claim false of the code."
  },
  {
   "property": "C127",
   "status": "partial",
   "theorems": [
    "Verif.OffenceBook.C127_filed_together_iff_same_pallet",
    "Verif.OffenceBook.C127_announced_partial",
    "Verif.OffenceBook.C127_second_offence_is_not_announced"
   ],
   "note": "Proved: announced for everybody named for the first time under the kind in the session. The full claim is false of the code: C127_second_offence_is_not_announced."
  },
  {
   "property": "C128",
   "status": "proved",
   "theorems": [
    "Verif.Authority.C128_no_authority_without_sudo_or_vote",
    "Verif.Authority.C128_from_genesis",
    "Verif.Authority.C128_sudo_can",
    "Verif.Authority.C128_root_vote_can"
   ],
   "note": ""
  },
  {
   "property": "C129",
   "status": "proved",
   "theorems": [
    "Verif.Authority.C129_candidates_do_not_join_or_leave_by_themselves",
    "Verif.Authority.C129_sudo_as_passes_the_filter"
   ],
   "note": ""
  },
  {
   "property": "C130",
   "status": "proved",
   "theorems": [
    "Verif.Authority.C130_votes_give_no_account",
    "Verif.Authority.C130_general_admin_can_do_nothing",
    "Verif.Authority.C130_canceller_only_cancels",
    "Verif.Authority.C130_killer_only_kills",
    "Verif.Authority.C130_whitelisted_caller_needs_root",
    "Verif.Authority.C130_messages_have_no_power_of_their_own",
    "Verif.Authority.C130_unsigned_calls"
   ],
   "note": ""
  },
  {
   "property": "C131",
   "status": "proved",
   "theorems": [
    "Verif.Authority.C131_nobody_acts_for_another",
    "Verif.Authority.C131_accounts_make_their_own_calls",
    "Verif.Authority.C131_proxies_run_proven_calls"
   ],
   "note": ""
  },
  {
   "property": "C132",
   "status": "proved",
   "theorems": [
    "Verif.LeafQuery.C132_search_finds_the_transaction",
    "Verif.LeafQuery.C132_every_transaction_is_provable",
    "Verif.LeafQuery.C132_proofs_are_for_transactions_of_the_range"
   ],
   "note": ""
  },
  {
   "property": "C133",
   "status": "proved",
   "theorems": [
    "Verif.Governed.C133_validators_stay",
    "Verif.Governed.C133_validators_of_genesis"
   ],
   "note": ""
  },
  {
   "property": "C134",
   "status": "proved",
   "theorems": [
    "Verif.Governed.C134_token_settings_stay",
    "Verif.Governed.C134_bridge_instance_stays",
    "Verif.Governed.C134_summary_settings_stay",
    "Verif.Governed.C134_challenge_period_stays",
    "Verif.Governed.C134_checkpoint_fees_stay",
    "Verif.Governed.C134_known_senders_stay",
    "Verif.Governed.C134_slashing_stays"
   ],
   "note": ""
  },
  {
   "property": "C135",
   "status": "proved",
   "theorems": [
    "Verif.Governed.C135_bridge_ids_and_answers",
    "Verif.Governed.C135_bridge_contract_stays",
    "Verif.Governed.C135_active_request_stays_until_decided"
   ],
   "note": ""
  },
  {
   "property": "C136",
   "status": "proved",
   "theorems": [
    "Verif.Governed.C136_staking_settings_stay"
   ],
   "note": ""
  },
  {
   "property": "C137",
   "status": "proved",
   "theorems": [
    "Verif.Governed.C137_balances_without_key_never_fall"
   ],
   "note": ""
  },
  {
   "property": "C138",
   "status": "proved",
   "theorems": [
    "Verif.Discovery.C138_calls_read_the_bridges_network",
    "Verif.Discovery.C138_one_node_per_network",
    "Verif.Discovery.C138_calls_are_rounds_of_the_bridge"
   ],
   "note": ""
  },
  {
   "property": "C139",
   "status": "partial",
   "theorems": [
    "Verif.Discovery.C139_network_is_found_partial",
    "Verif.Discovery.C139_silent_first_address_hides_all"
   ],
   "note": "Proved when no address listed before the answering one fails to answer, in one of the three attempts. The full claim is false of the code: C139_silent_first_address_hides_all (one dead address at the front of the list keeps the node from ever voting)."
  },
  {
   "property": "C140",
   "status": "partial",
   "theorems": [
    "Verif.Discovery.C140_bridge_gets_its_round_partial",
    "Verif.Discovery.C140_failing_bridge_stops_the_rest"
   ],
   "note": "Proved when nothing goes wrong with the bridges before it in the round. The full claim is false of the code: C140_failing_bridge_stops_the_rest."
  },
  {
   "property": "C141",
   "status": "proved",
   "theorems": [
    "Verif.Discovery.C141_calls_in_own_name",
    "Verif.Discovery.C141_starts_when_it_is_an_author"
   ],
   "note": ""
  },
  {
   "property": "C142",
   "status": "proved",
   "theorems": [
    "Verif.Nft.C142_owner_can_list",
    "Verif.Nft.C142_owner_can_list_by_signature",
    "Verif.Nft.C142_owner_can_transfer",
    "Verif.Nft.C142_owner_can_cancel",
    "Verif.Nft.C142_ethereum_can_settle",
    "Verif.Nft.C142_listed_on_a_market",
    "Verif.Nft.C142_batches_can_be_created",
    "Verif.Nft.C142_creator_can_list_batch",
    "Verif.Nft.C142_sale_can_be_ended",
    "Verif.Nft.C142_creator_can_mint",
    "Verif.Nft.C142_ethereum_can_mint"
   ],
   "note": ""
  },
  {
   "property": "C143",
   "status": "proved",
   "theorems": [
    "Verif.TokenManager.C143_transfer_accepted_iff",
    "Verif.TokenManager.C143_relayed_transfer",
    "Verif.TokenManager.C143_direct_lower_accepted_iff",
    "Verif.TokenManager.C143_signed_lower_accepted_iff",
    "Verif.TokenManager.C143_relayed_lower",
    "Verif.TokenManager.C143_due_lower_executed_iff",
    "Verif.TokenManager.C143_lower_goes_on",
    "Verif.TokenManager.C143_lift_accepted_iff"
   ],
   "note": ""
  },
  {
   "property": "C144",
   "status": "proved",
   "theorems": [
    "Verif.Anchor.C144_registration_accepted_iff",
    "Verif.Anchor.C144_handover_accepted_iff",
    "Verif.Anchor.C144_checkpoint_accepted_iff"
   ],
   "note": ""
  },
  {
   "property": "C145",
   "status": "proved",
   "theorems": [
    "Verif.Proxy.C145_accepted_iff",
    "Verif.Proxy.C145_does_the_signers_call",
    "Verif.Proxy.C145_fee_then_call"
   ],
   "note": ""
  },
  {
   "property": "C146",
   "status": "proved",
   "theorems": [
    "Verif.Staking.C146_join_accepted_iff",
    "Verif.Staking.C146_schedule_leave_accepted_iff",
    "Verif.Staking.C146_exit_accepted_iff",
    "Verif.Staking.C146_cancel_leave_accepted_iff",
    "Verif.Staking.C146_go_offline_accepted_iff",
    "Verif.Staking.C146_go_online_accepted_iff",
    "Verif.Staking.C146_candidate_bond_extra_accepted_iff",
    "Verif.Staking.C146_candidate_unbond_scheduled_iff",
    "Verif.Staking.C146_candidate_unbond_executed_iff",
    "Verif.Staking.C146_nominate_accepted_iff",
    "Verif.Staking.C146_bond_extra_accepted_iff",
    "Verif.Staking.C146_cancel_request_accepted_iff",
    "Verif.Staking.C146_leave_nominators_accepted_iff",
    "Verif.Staking.C146_schedule_revoke_accepted_iff",
    "Verif.Staking.C146_schedule_decrease_accepted_iff",
    "Verif.Staking.C146_execute_request_accepted_iff",
    "Verif.Staking.C146_cancel_leave_nominators_accepted_iff",
    "Verif.Staking.C146_schedule_leave_nominators_accepted_iff",
    "Verif.Staking.C146_bond_extra_all_accepted_iff"
   ],
   "note": ""
  },
  {
   "property": "C147",
   "status": "proved",
   "theorems": [
    "Verif.EthKey.C147_sent_bytes_are_the_point",
    "Verif.EthKey.C147_points_are_accepted",
    "Verif.EthKey.C147_different_keys_are_sent_differently",
    "Verif.EthKey.C147_requests_name_the_key",
    "Verif.EthKey.C147_registered_keys_decompress",
    "Verif.EthKey.C147_removal_not_refused_for_the_key"
   ],
   "note": ""
  },
  {
   "property": "C148",
   "status": "proved",
   "theorems": [
    "Verif.Validators.C148_addition_accepted_iff",
    "Verif.Validators.C148_addition_effect",
    "Verif.Validators.C148_removal_accepted_iff",
    "Verif.Validators.C148_removal_effect",
    "Verif.Validators.C148_rotation"
   ],
   "note": ""
  },
  {
   "property": "C149",
   "status": "proved",
   "theorems": [
    "Verif.EthEvents.C149_report_accepted_iff",
    "Verif.EthEvents.C149_signed_report_accepted_iff",
    "Verif.EthEvents.C149_check_accepted_iff",
    "Verif.EthEvents.C149_challenge_accepted_iff",
    "Verif.EthEvents.C149_processing_accepted_iff",
    "Verif.EthEvents.C149_good_event_is_applied"
   ],
   "note": ""
  },
  {
   "property": "C150",
   "status": "proved",
   "theorems": [
    "Verif.Summary.C150_root_accepted_iff",
    "Verif.Summary.C150_vote_accepted_iff",
    "Verif.Summary.C150_slot_advance_accepted_iff",
    "Verif.Summary.C150_slot_challenge_accepted_iff",
    "Verif.Summary.C150_settings_accepted_iff"
   ],
   "note": ""
  },
  {
   "property": "C151",
   "status": "proved",
   "theorems": [
    "Verif.BridgeTx.C151_request_accepted_iff",
    "Verif.BridgeTx.C151_request_effect",
    "Verif.BridgeTx.C151_lower_proof_accepted_iff",
    "Verif.BridgeTx.C151_hash_recorded_iff",
    "Verif.BridgeTx.C151_other_corroborations_do_nothing",
    "Verif.BridgeTx.C151_corroboration_counted",
    "Verif.BridgeTx.C151_decided_is_settled",
    "Verif.BridgeTx.C151_failed_send_is_repeated",
    "Verif.BridgeTx.C151_removal",
    "Verif.BridgeTx.C151_instance_accepted_iff",
    "Verif.BridgeTx.C151_lower_confirmation"
   ],
   "note": ""
  },
  {
   "property": "C152",
   "status": "proved",
   "theorems": [
    "Verif.EthBridge.C152_event_vote_accepted_iff",
    "Verif.EthBridge.C152_event_vote_stands",
    "Verif.EthBridge.C152_approved_events_are_applied",
    "Verif.EthBridge.C152_block_vote_accepted_iff",
    "Verif.EthBridge.C152_voted_block",
    "Verif.EthBridge.C152_block_vote_stands",
    "Verif.EthBridge.C152_admin_accepted_iff"
   ],
   "note": ""
  },
  {
   "property": "C153",
   "status": "proved",
   "theorems": [
    "Verif.Authors.C153_addition_accepted_iff",
    "Verif.Authors.C153_addition_effect",
    "Verif.Authors.C153_removal",
    "Verif.Authors.C153_rotation"
   ],
   "note": ""
  },
  {
   "property": "C154",
   "status": "proved",
   "theorems": [
    "Verif.Staking.C154_execute_all_accepted_iff",
    "Verif.Staking.C154_departure_depends_on_order"
   ],
   "note": ""
  },
  {
   "property": "C155",
   "status": "proved",
   "theorems": [
    "Verif.Staking.C155_schedule_unbond_all_accepted_iff"
   ],
   "note": ""
  },
  {
   "property": "C156",
   "status": "proved",
   "theorems": [
    "Verif.Staking.C156_split_nominate_accepted_iff",
    "Verif.Staking.C156_depends_on_block"
   ],
   "note": ""
  },
  {
   "property": "C157",
   "status": "proved",
   "theorems": [
    "Verif.Fees.C157_terms_taken_iff",
    "Verif.Fees.C157_removed",
    "Verif.Fees.C157_cost",
    "Verif.Fees.C157_temporary_terms_are_not_checked"
   ],
   "note": ""
  }
 ]
}