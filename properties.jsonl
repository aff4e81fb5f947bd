{"id": "C01", "title": "Non-native token supply is conserved", "statement": "For every token id other than the native token contract, the sum of all account balances of that token changes only by lifts, deposits and refunds (which add exactly the credited amount) and executed lowers (which subtract exactly the lowered amount); signed transfers, fee payments and every failed call leave the sum unchanged, and no balance ever goes below zero or above u128::MAX.", "quantifier": "every sequence of token-manager calls and bridge notifications, every account, token and amount", "why_tests_cant": "The invariant is a sum over an unbounded account map and an unbounded history; a test only checks a few accounts after a few calls (self-transfer, overflow and rejected-call paths are combinations).", "anchors": ["pallets/token-manager/src/lib.rs: settle_transfer, settle_lower, credit_token_balance, process_lift, process_lower_reverted, pay_fee"]}
{"id": "C02", "title": "A signed token authorisation is executed at most once", "statement": "Each successful signed_transfer or schedule_signed_lower by an account consumes that account's current nonce and increases it by exactly one; a proof signed over an earlier nonce is never accepted again, so the same signed payload cannot move funds twice.", "quantifier": "every history of calls, every signer, every proof, until the u64 nonce wraps", "why_tests_cant": "Replay must be excluded over all later histories, not only immediately after the first use.", "anchors": ["pallets/token-manager/src/lib.rs: signed_transfer, schedule_signed_lower, encode_signed_transfer_params, encode_signed_lower_params, Nonces"]}
{"id": "C03", "title": "Only the signer's funds move, and only with authorisation", "statement": "A token balance of an account decreases only through a call whose dispatch origin is that account with a proof by that account over exactly the (relayer, from, to/t1 recipient, token, amount, nonce) executed, through a lower that account itself scheduled, or through a fee payment it authorised; a relayer cannot redirect, enlarge or retarget a signed transfer or lower.", "quantifier": "every relayer, proof, call parameter and state", "why_tests_cant": "Needs reasoning about all encodings and all adversarial parameter choices.", "anchors": ["pallets/token-manager/src/lib.rs: proxy, signed_transfer, schedule_signed_lower, get_proof"]}
{"id": "C04", "title": "Signed payload encodings are injective and domain separated", "statement": "The byte strings signed for transfer and for lower determine (context, relayer, from, to or t1 recipient, token, amount, nonce) uniquely; no transfer payload equals any lower payload.", "quantifier": "all field values", "why_tests_cant": "Injectivity is a statement over all pairs of inputs.", "anchors": ["pallets/token-manager/src/lib.rs: encode_signed_transfer_params, encode_signed_lower_params, SIGNED_TRANSFER_CONTEXT, SIGNED_LOWER_CONTEXT"]}
{"id": "C05", "title": "Lower ids are unique and each lower is in one lifecycle stage", "statement": "Every successful lower request receives a fresh lower id; at any time an id is in at most one of: scheduled, pending proof, ready to claim, failed proof; an id that was claimed or reverted never re-enters any stage.", "quantifier": "every interleaving of scheduling, execution, proof results, regeneration, claim and revert events (before the u32 id counter wraps)", "why_tests_cant": "Interleavings of asynchronous bridge notifications with user calls are unbounded.", "anchors": ["pallets/token-manager/src/lib.rs: schedule_lower, execute_lower, regenerate_lower_proof, process_lower_proof_result, remove_used_lower"]}
{"id": "C06", "title": "A lower is refunded or claimed at most once", "statement": "For each lower id at most one LowerClaimed or LowerReverted event is ever accepted; a revert credits the refund exactly once and only if a claimable proof for that id exists.", "quantifier": "every history of bridge events and calls", "why_tests_cant": "Double refund requires a particular ordering of regenerate, proof result and events that tests do not enumerate.", "anchors": ["pallets/token-manager/src/lib.rs: process_lower_claim, process_lower_reverted, remove_used_lower"]}
{"id": "C07", "title": "A lower burns exactly what its proof promises", "statement": "Whenever a lower proof request is created for a fresh lower id, the sender's balance of the token was reduced by exactly the amount encoded in the proof parameters, in the same atomic call; if any step fails neither the balance nor the proof tables change.", "quantifier": "every state, token, amount and recipient", "why_tests_cant": "Atomicity over all failure points.", "anchors": ["pallets/token-manager/src/lib.rs: settle_lower, execute_lower", "primitives/avn-common/src/eth/mod.rs: concat_lower_data"]}
{"id": "C08", "title": "Lower proof bytes encode and decode faithfully", "statement": "concat_lower_data is injective: token, amount, t1 recipient, lower id, t2 sender and timestamp can be recovered from the fixed-size byte array, so two different lowers never share proof parameters.", "quantifier": "all field values", "why_tests_cant": "Round-trip over all 2^k inputs.", "anchors": ["primitives/avn-common/src/eth/mod.rs: concat_lower_data, LowerParams"]}
{"id": "C09", "title": "Growth lift splits exactly", "statement": "A growth lift of amount A credits the treasury with TreasuryGrowthPercentage*A rounded to the nearest unit and hands exactly A minus that share to the staking growth handler; the two shares always sum to A.", "quantifier": "every amount and percentage", "why_tests_cant": "All amounts and rounding cases.", "anchors": ["pallets/token-manager/src/lib.rs: process_avt_growth_lift"]}
{"id": "C10", "title": "A rejected incoming event leaves balances untouched", "statement": "If processing an incoming Ethereum event is reported as rejected, no balance and no claimable lower was changed by it.", "quantifier": "every event, every state, every failure point of the handler", "why_tests_cant": "Requires examining each partial-failure point of a non-transactional handler.", "anchors": ["pallets/eth-bridge/src/lib.rs: process_ethereum_event", "pallets/token-manager/src/lib.rs: process_lower_reverted, process_avt_growth_lift"]}
{"id": "C11", "title": "Lowering switch is respected", "statement": "While lowering is disabled no lower can be scheduled, executed or have its proof regenerated, and re-enabling restores the previous behaviour.", "quantifier": "every state and call", "why_tests_cant": "Universally quantified over calls.", "anchors": ["pallets/token-manager/src/lib.rs: toggle_lowering, execute_lower, schedule_direct_lower, schedule_signed_lower, regenerate_lower_proof"]}
{"id": "C12", "title": "An Ethereum transaction is processed at most once", "statement": "Once an incoming event with Ethereum transaction hash h has been accepted by the bridge, no later partition, vote, admin action or additional-event queueing makes the bridge process an event with hash h again, so the corresponding lift is credited at most once.", "quantifier": "every history of votes, partitions, admin calls and handlers, for a fixed bridge instance network", "why_tests_cant": "Replay across unbounded later histories.", "anchors": ["pallets/eth-bridge/src/lib.rs: process_ethereum_event, add_processed_event, processed_event_exists, ProcessedEthereumEvents"]}
{"id": "C13", "title": "Event partitions need a quorum of distinct authors", "statement": "An event partition is processed only when at least quorum distinct author accounts voted for exactly that partition (same range, number, is_last flag and events); each author has at most one live vote.", "quantifier": "every sequence of submissions by any authors", "why_tests_cant": "All vote orders and author sets.", "anchors": ["pallets/eth-bridge/src/lib.rs: submit_ethereum_events, author_has_cast_event_vote"]}
{"id": "C14", "title": "Ethereum range progress is contiguous", "statement": "After the last partition of a range is approved the next active range starts exactly where the previous one ended (no gap, no overlap) with partition 0; otherwise the partition number advances by one and the range is unchanged.", "quantifier": "every history of approved partitions (below u32 block saturation)", "why_tests_cant": "Unbounded number of ranges.", "anchors": ["pallets/eth-bridge/src/lib.rs: advance_partition", "primitives/avn-common/src/event_discovery.rs: next_range, end_block"]}
{"id": "C15", "title": "Initial block vote selects a robust block", "statement": "When the initial Ethereum block vote concludes, the chosen start block is one that was voted for, at least quorum votes are for that block or a later one, and more than (supermajority - quorum) votes are for that block or an earlier one.", "quantifier": "every multiset of votes", "why_tests_cant": "Order statistics over all vote distributions.", "anchors": ["pallets/eth-bridge/src/lib.rs: submit_latest_ethereum_block", "primitives/avn-common/src/event_discovery.rs: compute_start_block_from_finalised_block_number"]}
{"id": "C16", "title": "Partitioning of discovered events is faithful", "statement": "create_partitions yields at least one partition, consecutively numbered (as u16), of at most 32 events each, exactly the final one flagged last, whose concatenation is ordered by (block, transaction hash) and contains exactly the discovered events; only identical neighbours within a partition are collapsed to one.", "quantifier": "every list of discovered events and every range", "why_tests_cant": "All list lengths and orders.", "anchors": ["primitives/avn-common/src/event_discovery.rs: EthereumEventsPartitionFactory::create_partitions, DiscoveredEvent::cmp"]}
{"id": "C17", "title": "Bridge request queue is FIFO, bounded and loss-free", "statement": "Requests become active in exactly the order they were accepted; at most one is active; at most MaxQueuedTxRequests wait; there is a waiting request only if there is an active one; every accepted request is eventually either active, waiting, settled, or reported back to its caller as failed.", "quantifier": "every sequence of publish, lower proof, confirmation, corroboration and admin calls", "why_tests_cant": "Queue order over unbounded histories including setup failures.", "anchors": ["pallets/eth-bridge/src/request.rs: queue_request, dequeue_request, process_next_request, add_new_send_request, add_new_lower_proof_request"]}
{"id": "C18", "title": "Ethereum transaction ids are never reused", "statement": "Each published request gets a transaction id strictly greater than all previous ones as long as the administrator does not reset the counter (and below u32 wrap).", "quantifier": "every history of publishes", "why_tests_cant": "Uniqueness over unbounded history.", "anchors": ["pallets/eth-bridge/src/tx.rs: use_next_tx_id"]}
{"id": "C19", "title": "A transaction outcome needs a corroboration quorum of other authors", "statement": "A bridge transaction is reported to its caller as succeeded (failed) through corroboration only when at least the quorum of (authors - 1) distinct accounts other than the assigned sender corroborated that outcome in the current replay attempt; each author is counted at most once per attempt.", "quantifier": "every sequence of corroborations from any authors", "why_tests_cant": "All orders and duplicates.", "anchors": ["pallets/eth-bridge/src/lib.rs: add_corroboration", "pallets/eth-bridge/src/util.rs: has_enough_corroborations, requires_corroboration", "pallets/eth-bridge/src/tx.rs: finalize_state, complete_transaction"]}
{"id": "C20", "title": "Caller is notified exactly once per send request", "statement": "Every accepted send request leads to at most one process_result notification to the originating pallet, carrying the request's own id, after which the request is never active again.", "quantifier": "every history", "why_tests_cant": "Exactly-once is a property of all interleavings of corroboration, admin removal and queue processing.", "anchors": ["pallets/eth-bridge/src/tx.rs: complete_transaction", "pallets/eth-bridge/src/lib.rs: remove_active_request_impl", "pallets/eth-bridge/src/request.rs: process_next_request"]}
{"id": "C21", "title": "Lower proofs carry a supermajority of distinct validators", "statement": "A lower proof is handed to the token manager as ready only when it carries at least the supermajority number of confirmations, each a verified ECDSA signature over the request's message hash by a current validator, and these come from distinct validators.", "quantifier": "every sequence of confirmations", "why_tests_cant": "Adversarial signatures; duplicates by the same author under different signature bytes.", "anchors": ["pallets/eth-bridge/src/lib.rs: add_confirmation", "pallets/eth-bridge/src/eth.rs: verify_signature", "pallets/eth-bridge/src/request.rs: complete_lower_proof_request"]}
{"id": "C22", "title": "Ethereum tx hash is write-once by the assigned sender", "statement": "Within one attempt of a send request the Ethereum transaction hash can be set only by the assigned sender and only once to a non-zero value.", "quantifier": "every call sequence", "why_tests_cant": "All interleavings.", "anchors": ["pallets/eth-bridge/src/lib.rs: add_eth_tx_hash"]}
{"id": "C23", "title": "Unsigned validator calls are authenticated by the validator's registered key", "statement": "An unsigned call attributed to validator account v passes validation only if it is signed by the AvN key registered for v in the current validator set.", "quantifier": "every call, author and signature", "why_tests_cant": "Needs all adversarial (account, key) combinations.", "anchors": ["pallets/avn/src/lib.rs: signature_is_valid, is_validator"]}
{"id": "C24", "title": "Quorum arithmetic", "statement": "quorum(n) = ceil(n/3) and supermajority(n) = floor(2n/3) satisfy quorum(n)+supermajority(n)=n for every n; quorum is positive for n>0; a quorum and a supermajority plus one always share a member; any two supermajorities of n=3 or n>=5 validators share a member (with 4 validators they need not); and no u32 overflow occurs for validator counts within the bound.", "quantifier": "every validator count", "why_tests_cant": "All n.", "anchors": ["pallets/avn/src/lib.rs: required_for, required_for_supermajority"]}
{"id": "C25", "title": "Primary validator rotation is fair", "statement": "With a fixed non-empty validator list (fewer than 256), len consecutive sender assignments select every validator index exactly once, and the assigned sender is always a current validator.", "quantifier": "every list length, starting index and number of rounds", "why_tests_cant": "Unbounded rounds and sizes.", "anchors": ["pallets/avn/src/lib.rs: advance_primary_validator_for_sending, get_primary_validator_for_sending"]}
{"id": "C26", "title": "Voting sessions count distinct validators once", "statement": "In a voting session every validator is recorded at most once and on one side only, only current validators can vote, and the session ends exactly when ayes or nays reaches the threshold (or the period ends); approval at the end is equivalent to ayes >= threshold.", "quantifier": "every sequence of approve/reject votes", "why_tests_cant": "All vote interleavings.", "anchors": ["pallets/avn/src/vote.rs: process_approve_vote, process_reject_vote, validate_vote, end_voting_if_outcome_reached"]}
{"id": "C27", "title": "Ethereum log parsing is exact", "statement": "For each supported Ethereum event, parsing the ABI encoding (topics and data) of a value that fits the on-chain field types returns exactly that value; a log whose amount does not fit in u128, or with wrong topic count or word length, is rejected with an error, never silently truncated.", "quantifier": "every event value and every malformed log", "why_tests_cant": "All byte strings; truncation of high bytes appears only for particular inputs.", "anchors": ["primitives/avn-common/src/event_types.rs: LiftedData::parse_bytes, AvtGrowthLiftedData::parse_bytes, AvtLowerClaimedData::parse_bytes, LowerRevertedData::parse_bytes, NftMintData::parse_bytes, NftTransferToData::parse_bytes, NftCancelListingData::parse_bytes, NftEndBatchListingData::parse_bytes, AddedValidatorData::parse_bytes"]}
{"id": "C28", "title": "Off-chain worker runs at most once per block", "statement": "For a given worker identity the sequence of block numbers for which the worker is allowed to run is strictly increasing, whatever the order (including re-orgs) in which blocks trigger it.", "quantifier": "every sequence of block triggers", "why_tests_cant": "All re-org orders.", "anchors": ["primitives/avn-common/src/ocw_lock.rs: record_block_run"]}
{"id": "C29", "title": "Summaries cover the chain contiguously", "statement": "Under a fixed schedule period, every root that becomes validated starts at exactly the block following the previously validated root's last block, so validated roots tile the block numbers with no gap and no overlap; a proposal for any other range is rejected.", "quantifier": "all sequences of record, vote, end-voting, slot and admin calls", "why_tests_cant": "Needs an induction over every history of proposals, votes and challenges.", "anchors": ["pallets/summary/src/lib.rs: record_summary_calculation, end_voting_on_root, get_target_block"]}
{"id": "C30", "title": "A summary root is voted on at most once at a time and decided by a valid session", "statement": "A root id is pending approval iff it has an open voting session; it is validated only when its session is ended with at least the quorum (ceil(n/3) at proposal time) of ayes, whether ended by outcome or by expiry; a validated root is never re-proposed or un-validated.", "quantifier": "all vote sequences and validator set sizes", "why_tests_cant": "Depends on all interleavings of votes and period ends.", "anchors": ["pallets/summary/src/lib.rs: end_voting_on_root", "pallets/avn/src/vote.rs"]}
{"id": "C31", "title": "A summary root is finalised only after its Ethereum transaction succeeded", "statement": "The finalised flag of a root is set only when the bridge reports success for the transaction id that was recorded for exactly this root; a failed or unrelated notification never finalises any root.", "quantifier": "all notification sequences", "why_tests_cant": "Notifications come asynchronously in any order.", "anchors": ["pallets/summary/src/lib.rs: process_result, publish_root"]}
{"id": "C32", "title": "Summary slots rotate fairly and the grace period is respected", "statement": "The slot number only advances by one, at or after the slot's end block; during the grace period only the slot's own validator may advance it, after the grace period only other validators may; the next slot's validator is the validator at index slot mod n.", "quantifier": "all block heights, validator sets and callers", "why_tests_cant": "Ranges over all heights and callers.", "anchors": ["pallets/summary/src/lib.rs: advance_slot, validator_can_advance_slot, update_slot_number"]}
{"id": "C33", "title": "Summary challenges are only accepted against a really absent validator", "statement": "A slot-not-advanced challenge is recorded only when it names the current slot and its current validator and the grace period elapsed without the slot advancing; after that challenge the slot has moved and the same challenge is rejected.", "quantifier": "all challenges and heights", "why_tests_cant": "Ranges over every challenge and schedule.", "anchors": ["pallets/summary/src/lib.rs: add_challenge", "pallets/summary/src/challenge.rs"]}
{"id": "C34", "title": "Summary periods stay within their bounds", "statement": "At all times after genesis configuration through the public calls the voting period is at least 25, at most 28800 and smaller than the schedule period, and the schedule period at least 30.", "quantifier": "all sequences of configuration calls", "why_tests_cant": "All configuration histories.", "anchors": ["pallets/summary/src/lib.rs: set_periods, set_schedule_period, set_voting_period"]}
{"id": "C35", "title": "Externally validated roots are resolved once", "statement": "A root under external validation is accepted (published/anchored) at most once, either by a passed vote or by an admin decision after a cancelled/failed one; an admin decision requires a pending review of exactly that root.", "quantifier": "all orders of voting-completed, cancelled and admin calls", "why_tests_cant": "Hook order is outside of the pallet's control.", "anchors": ["pallets/summary/src/lib.rs: on_voting_completed, on_cancelled, admin_resolve_challenge"]}
{"id": "C36", "title": "A checked event is handled only after its challenge window", "statement": "In the legacy event pipeline an event's effect is applied only if a validator's check result was recorded for it and strictly more than EventChallengePeriod blocks passed, and the number of distinct challengers did not exceed the threshold.", "quantifier": "all interleavings of add, check, challenge and process", "why_tests_cant": "All schedules of four asynchronous actors.", "anchors": ["pallets/ethereum-events/src/lib.rs: process_event, challenge_event, submit_checkevent_result"]}
{"id": "C37", "title": "A legacy Ethereum event is in at most one queue and its transaction is applied at most once", "statement": "An Ethereum event id is at most once in the unchecked and pending-challenge queues together; a transaction recorded as processed stays recorded and none of its events can be queued any more; the events of a transaction are applied at most once; ingress counters are unique and increase strictly (below 2^64).", "quantifier": "all histories", "why_tests_cant": "Requires an invariant over every history.", "anchors": ["pallets/ethereum-events/src/lib.rs: add_event, event_exists_in_system"]}
{"id": "C38", "title": "Checked events are never silently dropped", "statement": "Submitting a check result moves the event from the unchecked to the pending-challenge queue; it does not disappear from both.", "quantifier": "all queue fill levels", "why_tests_cant": "Boundary of a bounded queue under load.", "anchors": ["pallets/ethereum-events/src/lib.rs: submit_checkevent_result"]}
{"id": "C39", "title": "Challenges are counted once per distinct validator and never self-inflicted", "statement": "The challengers recorded for an event are distinct current validators, at most the list bound, and never the validator that checked it; a challenge succeeds iff their number exceeds max(minimum, n / quorum factor); challenges recorded against one check result do not count against a later one.", "quantifier": "all challenge sequences", "why_tests_cant": "All multi-party schedules, including resubmission.", "anchors": ["pallets/ethereum-events/src/lib.rs: challenge_event, is_challenge_successful, process_event"]}
{"id": "C40", "title": "Ordered sets stay sorted and duplicate free", "statement": "Candidate pool, nominator lists and every ordered set keep strict order and no duplicates under any sequence of inserts and removals; insert succeeds iff the element was absent and there is room, remove iff it was present, and membership afterwards is the set-theoretic one.", "quantifier": "all operation sequences", "why_tests_cant": "Unbounded sequences of operations.", "anchors": ["pallets/parachain-staking/src/set.rs: OrderedSet"]}
{"id": "C41", "title": "Nominator lists of a collator stay partitioned and ordered", "statement": "For every collator the top and bottom nominations are disjoint, each nominator occurs once, both lists are sorted by amount descending, sizes respect the caps, no bottom nomination exceeds a top nomination when top is full, and bottom is empty unless top is full.", "quantifier": "all sequences of nominate, bond more, decrease, revoke, leave and kick", "why_tests_cant": "Unbounded sequences of stake movements.", "anchors": ["pallets/parachain-staking/src/types.rs: CandidateMetadata::{add_nomination, add_top_nomination, add_bottom_nomination, rm_nomination_if_exists, increase_nomination, decrease_nomination}"]}
{"id": "C42", "title": "Counted stake equals self bond plus top nominations", "statement": "A collator's total counted stake always equals its own bond plus the sum of its top nominations, and its nomination count equals the number of nominators listed.", "quantifier": "all operation sequences", "why_tests_cant": "Accounting invariant over every history.", "anchors": ["pallets/parachain-staking/src/types.rs: CandidateMetadata::total_counted, reset_top_data"]}
{"id": "C43", "title": "The recorded total of a collator's bottom nominations is exact", "statement": "The cached total of the bottom nominations always equals the sum of the amounts in the list, so the stake released when a collator leaves is what was bonded.", "quantifier": "all operation sequences", "why_tests_cant": "A cached sum must be right after every path.", "anchors": ["pallets/parachain-staking/src/types.rs: decrease_bottom_nomination", "pallets/parachain-staking/src/lib.rs: execute_leave_candidates"]}
{"id": "C44", "title": "A nominator's lock equals its outstanding nominations", "statement": "A nominator's recorded total and its balance lock equal the sum of its per-collator bonds after every call; a decrease below the minimum nomination is refused.", "quantifier": "all operation sequences", "why_tests_cant": "Accounting invariant over every history.", "anchors": ["pallets/parachain-staking/src/types.rs: Nominator", "pallets/parachain-staking/src/nomination_requests.rs"]}
{"id": "C45", "title": "Unbonding respects the delay", "statement": "A scheduled revoke, decrease, candidate unbond or exit can be executed only at or after era-of-request + delay, reduces the bond by exactly the requested amount, at most once, and a cancelled request can never be executed.", "quantifier": "all eras and orders of schedule, cancel and execute", "why_tests_cant": "All timings and orders.", "anchors": ["pallets/parachain-staking/src/nomination_requests.rs: nominator_schedule_*, nomination_execute_scheduled_request, nomination_cancel_request", "pallets/parachain-staking/src/types.rs: schedule_unbond, execute_unbond"]}
{"id": "C46", "title": "A successfully scheduled unbonding request is recorded", "statement": "If scheduling a revoke or a decrease returns success, the request is stored and can be executed after the delay.", "quantifier": "all fill levels of the request list", "why_tests_cant": "Boundary of a bounded list.", "anchors": ["pallets/parachain-staking/src/nomination_requests.rs: nomination_schedule_revoke"]}
{"id": "C47", "title": "Splitting a nomination bonds exactly the requested amount", "statement": "Nominating (or bonding extra) amount A over the selected collators bonds exactly A in total, every collator gets at least A div n, and only one gets the remainder.", "quantifier": "all amounts, collator counts and block numbers", "why_tests_cant": "Ranges over all amounts and sizes.", "anchors": ["pallets/parachain-staking/src/lib.rs: split_and_nominate, signed_bond_extra"]}
{"id": "C48", "title": "Era payouts never exceed what was lifted", "statement": "The sum paid to collators and nominators for a growth period or era never exceeds the amount set aside for it.", "quantifier": "all stakes, points and collator counts", "why_tests_cant": "Rounding error accumulates over every distribution.", "anchors": ["pallets/parachain-staking/src/lib.rs: payout_collators, pay_one_collator_reward, calculate_collator_reward"]}
{"id": "C49", "title": "Locked era payouts are always backed", "statement": "The amount locked for era payouts never exceeds the balance of the reward pot, and each era locks exactly the unlocked rest of the pot.", "quantifier": "all sequences of era changes, rewards and payments", "why_tests_cant": "Invariant over all histories.", "anchors": ["pallets/parachain-staking/src/lib.rs: prepare_staking_payouts, compute_total_reward_to_pay, payout_reward"]}
{"id": "C50", "title": "Growth is triggered and paid at most once per period", "statement": "Each growth period is sent to Ethereum at most once successfully and paid out at most once; only fully accumulated periods are triggered.", "quantifier": "all sequences of eras, bridge results and lift events", "why_tests_cant": "Asynchronous bridge results and retries.", "anchors": ["pallets/parachain-staking/src/lib.rs: trigger_outstanding_growths, payout_growth, process_result"]}
{"id": "C51", "title": "Selected collators are the top backed candidates", "statement": "The selected set has at most TotalSelected members, all of which are active pool members meeting the minimum stake, no unselected eligible candidate has strictly more stake than a selected one; if none qualifies the old set stays.", "quantifier": "all candidate pools", "why_tests_cant": "Ranges over all pools.", "anchors": ["pallets/parachain-staking/src/lib.rs: compute_top_candidates, select_top_candidates"]}
{"id": "C52", "title": "Eras advance by one and only at their length", "statement": "The era number increases only by one, never before the configured length elapsed unless forced, and era start blocks are strictly increasing.", "quantifier": "all block sequences", "why_tests_cant": "Induction over block heights.", "anchors": ["pallets/parachain-staking/src/types.rs: EraInfo::{should_update, update}", "pallets/parachain-staking/src/session_handler.rs"]}
{"id": "C53", "title": "The validator set never falls below its minimum nor exceeds its maximum", "statement": "Through registration and deregistration calls and bridge callbacks the set of validators never shrinks below the configured minimum, never exceeds 256 members and never contains duplicates.", "quantifier": "all sequences of add, remove, callbacks and sessions", "why_tests_cant": "All asynchronous histories.", "anchors": ["pallets/validators-manager/src/lib.rs: add_collator, remove_validator, process_result, on_new_session"]}
{"id": "C54", "title": "Validator Ethereum keys are a bijection", "statement": "Each registered validator account has exactly one Ethereum public key and each key belongs to at most one account, in both lookup directions, at every time.", "quantifier": "all registration histories", "why_tests_cant": "Two maps must agree after every path.", "anchors": ["pallets/validators-manager/src/lib.rs: link_eth_key", "pallets/authors-manager/src/lib.rs: rotate"]}
{"id": "C55", "title": "Validator changes follow Ethereum confirmation", "statement": "An account becomes (ceases to be) a validator only after the bridge reported success for the transaction published for exactly this change; a failed registration leaves no trace, and at most one change is in flight.", "quantifier": "all callback orders", "why_tests_cant": "Asynchronous callbacks.", "anchors": ["pallets/validators-manager/src/lib.rs: process_result, complete_validator_registration, complete_validator_deregistration"]}
{"id": "C56", "title": "NFTs are only moved by their owner's authorisation", "statement": "The owner of an NFT changes only through a fiat transfer authorised by the current owner of a listed NFT or an Ethereum transfer event for an NFT listed for Ethereum whose operation id matches the NFT's nonce; a transfer always closes the listing.", "quantifier": "all call and event sequences", "why_tests_cant": "All histories of listings and transfers.", "anchors": ["pallets/nft-manager/src/lib.rs: transfer_nft, transfer_eth_nft, signed_transfer_fiat_nft"]}
{"id": "C57", "title": "NFT authorisations cannot be replayed", "statement": "The nonce of an NFT (batch) increases strictly with each list, cancel and transfer (list, mint, end), so one signature is accepted at most once.", "quantifier": "all replays", "why_tests_cant": "All replay schedules.", "anchors": ["pallets/nft-manager/src/lib.rs: signed_list_nft_open_for_sale, signed_cancel_list_fiat_nft", "pallets/nft-manager/src/batch_nft.rs"]}
{"id": "C58", "title": "External references and NFT ids are unique", "statement": "No two NFTs ever share an external reference or an id, across single and batch mints from both markets.", "quantifier": "all mint sequences", "why_tests_cant": "Uniqueness over every history.", "anchors": ["pallets/nft-manager/src/lib.rs: validate_mint_single_nft_request", "pallets/nft-manager/src/batch_nft.rs: validate_mint_batch_nft_request"]}
{"id": "C59", "title": "A batch never exceeds its supply", "statement": "The number of NFTs minted from a batch never exceeds the total supply fixed at creation; mints happen only while the batch is listed on the matching market.", "quantifier": "all mint sequences", "why_tests_cant": "Bound must hold for every history.", "anchors": ["pallets/nft-manager/src/batch_nft.rs"]}
{"id": "C60", "title": "Royalties are bounded by one hundred percent", "statement": "Every stored royalty set has each rate and the sum of rates at most one million parts per million.", "quantifier": "all royalty lists", "why_tests_cant": "All lists including ones that overflow the sum.", "anchors": ["pallets/nft-manager/src/lib.rs: validate_royalties"]}
{"id": "C61", "title": "A proxied call runs with the signer's authority only if the signer authorised it for that relayer", "statement": "The inner call is dispatched as proof.signer only when the caller is the relayer named in the proof and the signature over the call payload is valid; an unsupported inner call is rejected without any effect.", "quantifier": "all calls and proofs", "why_tests_cant": "Ranges over all calls and proofs.", "anchors": ["pallets/avn-proxy/src/lib.rs: proxy", "runtime/avn/src/proxy_config.rs"]}
{"id": "C62", "title": "A relayer fee authorisation is charged at most once and independently of the inner call", "statement": "Each payment authorisation is accepted at most once per payer nonce; the payer pays exactly the authorised amount to the recipient; the fee stays charged even if the inner call fails, and a failed fee aborts everything.", "quantifier": "all sequences of proxied calls", "why_tests_cant": "All replay schedules.", "anchors": ["pallets/avn-proxy/src/lib.rs: charge_fee"]}
{"id": "C63", "title": "Anchor chain handlers and checkpoints are unique and permanent", "statement": "Each chain id has at most one handler and each account handles at most one chain; checkpoint ids of a chain are consecutive; a stored checkpoint never changes; an origin id is used at most once per chain.", "quantifier": "all histories", "why_tests_cant": "Invariants over every history.", "anchors": ["pallets/avn-anchor/src/lib.rs: do_register_chain_handler, do_update_chain_handler, do_submit_checkpoint"]}
{"id": "C64", "title": "Anchor authorisations cannot be replayed", "statement": "A signed anchor call is executed at most once.", "quantifier": "all replays", "why_tests_cant": "All replay schedules.", "anchors": ["pallets/avn-anchor/src/lib.rs: signed_register_chain_handler, signed_update_chain_handler, signed_submit_checkpoint_with_identity"]}
{"id": "C65", "title": "Fee adjustments never overcharge", "statement": "Whatever adjustment a known sender has, the amount finally kept is at most the amount withdrawn up front, at least the tip when the withdrawal covered it, and without an active adjustment exactly the corrected fee (or all that was withdrawn, if that is less or the payer has no balance left to refund to); refund plus kept equals withdrawn.", "quantifier": "all fees, tips and configurations", "why_tests_cant": "Ranges over all amounts and configurations.", "anchors": ["pallets/avn-transaction-payment/src/lib.rs: calculate_refund_amount, correct_and_deposit_fee"]}
{"id": "C66", "title": "Adjustment limits are exact", "statement": "A transaction-count based adjustment applies to exactly the configured number of subsequent transactions of the sender and a time based one exactly to the blocks before its end.", "quantifier": "all nonces and heights", "why_tests_cant": "Ranges over all nonces and heights.", "anchors": ["pallets/avn-transaction-payment/src/fee_adjustment_config.rs"]}
{"id": "C67", "title": "Stored fee adjustments are valid", "statement": "Every stored adjustment has a non-zero fixed fee or a percentage between 1 and 100.", "quantifier": "all configurations", "why_tests_cant": "Ranges over all inputs.", "anchors": ["pallets/avn-transaction-payment/src/fee_adjustment_config.rs: is_valid"]}
{"id": "C68", "title": "An offender is punished at most once per registration", "statement": "Each validator is reported and slashed at most once until it registers again, and only while slashing is enabled.", "quantifier": "all report sequences", "why_tests_cant": "All orders and repetitions of reports.", "anchors": ["pallets/avn-offence-handler/src/lib.rs: on_offence"]}
{"id": "C69", "title": "Merkle paths prove inclusion", "statement": "For every leaf list and every non-empty leaf in it, a root and a path are generated and the path hashes the leaf up to that root; conversely, when neither the leaves nor the data are 64 bytes long, a path that hashes the data up to the root shows that the data is in the list, unless a hash collision is exhibited.", "quantifier": "all leaf lists and hash functions", "why_tests_cant": "All tree shapes and sizes.", "anchors": ["client/extrinsic-utils/src/merkle_tree_utils.rs"]}
{"id": "C70", "title": "Merkle leaves are domain separated from inner nodes", "statement": "No byte string outside of the leaf list can be proven to be in the tree.", "quantifier": "all leaf lists", "why_tests_cant": "Adversarial inputs.", "anchors": ["client/extrinsic-utils/src/merkle_tree_utils.rs"]}
{"id": "C71", "title": "Every bridge event in a block range is reported", "statement": "Every parsable wanted event emitted by the bridge contract in a range is reported to the runtime by the event handler, and an unparsable log does not stop other events from being reported.", "quantifier": "all sets of logs", "why_tests_cant": "Adversarial log contents.", "anchors": ["client/external-service/src/ethereum_events_handler.rs: identify_events"]}
{"id": "C72", "title": "An authorisation is good for one operation only", "statement": "The bytes a user signs to authorise a proxied call (plain, or wrapped by a wallet in <Bytes> tags) determine the call, all its arguments, the relayer and the nonce, across every pallet; the bytes signed for a relayer fee determine the proxied call's proof, recipient, amount, token and nonce, and are never the bytes of a call.", "quantifier": "all pairs of the 24 proxied calls, arguments of any size, and chain states", "why_tests_cant": "Injectivity over all inputs and pairs of calls.", "anchors": ["runtime/avn/src/proxy_config.rs", "pallets/parachain-staking/src/proxy_methods.rs", "pallets/nft-manager/src/lib.rs: get_encoded_call_param", "pallets/nft-manager/src/batch_nft.rs", "pallets/avn-anchor/src/lib.rs: get_encoded_call_param", "pallets/token-manager/src/lib.rs: get_encoded_call_param", "pallets/ethereum-events/src/lib.rs: get_encoded_call_param", "pallets/avn-proxy/src/lib.rs: verify_payment_authorisation_signature"]}
{"id": "C73", "title": "NFT provenance is permanent", "statement": "Once an NFT is minted it is never removed from storage; its external reference and its info record id never change, and the info record it points to (royalties, minting authority, batch creator and supply) keeps its content for ever, whatever extrinsics and Ethereum events come later.", "quantifier": "every history of NFT extrinsics (signed, proxied, batch and single) and Ethereum NFT events, and every NFT existing at some point of it", "why_tests_cant": "Tests check one mint followed by one or two transfers; permanence ranges over all later histories, including failed and adversarial ones.", "anchors": ["pallets/nft-manager/src/lib.rs: add_nft, update_owner_for_transfer, open_nft_for_sale", "pallets/nft-manager/src/batch_nft.rs: create_batch, mint_batch_nft"]}
{"id": "C74", "title": "Honest authors vote for the same partition", "statement": "Two authors with the same view of the Ethereum chain compute the same partition to vote for, whatever order their hash maps iterate in and whichever additional transactions are queued; the partition carries the requested range and number and only events that author really found.", "quantifier": "every Ethereum log history in which a transaction belongs to one block, every iteration order, range, partition number, set of wanted signatures and set of additional transactions", "why_tests_cant": "Hash map iteration order is randomised per process, so agreement of all nodes cannot be exhibited by running one of them.", "anchors": ["client/external-service/src/ethereum_events_handler.rs: identify_events, identify_additional_events, execute_event_processing", "primitives/avn-common/src/event_discovery.rs: create_partitions"]}
{"id": "C75", "title": "Block hooks of staking never panic", "statement": "The hooks that run at the start of every block (author reward points, forced or due era change with selection and snapshots, one delayed payout) and genesis never hit one of their panicking paths, whatever candidates, nominators, admin calls, bridge results and growth lifts came before: every selected collator still has candidate info, a snapshot of the previous era exists whenever the old selection is kept, and the selection fits its bound. Moreover the ledger inside the era model is always one that a sequence of ledger calls reaches, so C41-C47 apply to it.", "quantifier": "every genesis configuration, every history of blocks, extrinsics, admin calls, bridge notifications and lifted growths, every block number, author and iteration order", "why_tests_cant": "A panic in a hook stops the chain for good, and it may need a particular long history of joins, leaves, revocations and era changes; tests run a few histories.", "anchors": ["pallets/parachain-staking/src/lib.rs: on_initialize, start_new_era, select_top_candidates, GenesisConfig::build", "pallets/parachain-staking/src/session_handler.rs: should_end_session"]}
{"id": "C76", "title": "Era rewards are paid once, late, and by stake", "statement": "For each era, every collator has at most one turn and every payee is paid at most once per collator; nothing is paid before the payment delay has passed; payments are made only on behalf of accounts that authored a block in that era; the amounts are the collator's share by points of the amount set aside, divided by the stake snapshot taken when the era started; payments come out of the pot and, if the pot covers them, all are made.", "quantifier": "every genesis, every history of blocks, extrinsics, admin calls and growth lifts, every iteration order of the storage maps", "why_tests_cant": "Double payment could need a particular interleaving of forced eras, leaving collators, re-selection and payouts over many eras.", "anchors": ["pallets/parachain-staking/src/lib.rs: handle_delayed_payouts, pay_one_collator_reward, prepare_staking_payouts, select_top_candidates, note_author"]}
{"id": "C77", "title": "Every collator of an era gets its turn if the paying era is long enough", "statement": "In the era in which an era is paid out, every block gives one more of its collators its turn; if that era has at least as many blocks as there were block authors, all of them have their turn; once it is over nothing more is paid for the earlier era.", "quantifier": "every reachable state in which a payout is under way, every sequence of further steps within the era, every iteration order", "why_tests_cant": "Whether somebody is forgotten depends on the number of authors, era lengths, forced eras and storage iteration order.", "anchors": ["pallets/parachain-staking/src/lib.rs: on_initialize, handle_delayed_payouts, pay_one_collator_reward"]}
{"id": "C78", "title": "An approved partition is applied completely, in order, and reported truthfully", "statement": "When a quorum approves a partition of Ethereum events, every event in it of a recognised kind that lies in the range and whose transaction was not processed before is handed to the runtime in that very step; events are applied exactly once each and in order, nothing else changes the rest of the runtime, and EventAccepted/EventRejected report exactly whether the runtime applied the event.", "quantifier": "all states, histories, partitions, votes and behaviours of the rest of the runtime", "why_tests_cant": "the handler is arbitrary and partitions may contain any mix of valid, duplicate, foreign and late events; tests try a few", "anchors": ["pallets/eth-bridge/src/lib.rs: process_ethereum_events_partition, process_ethereum_event", "primitives/avn-common/src/event_discovery.rs: EthBridgeEventsFilter"]}
{"id": "C79", "title": "A bridge transaction is set up with exactly the requested content, a fresh deadline and the next sender", "statement": "Whatever the bridge pallet does, the active request is either kept as it is or is set up afresh: its message is the hash, under the current bridge instance, of the accepted function name and parameters followed by a deadline of now plus the lifetime and by its transaction id; its sender is the next author in turn; and nothing but accepted requests is ever served. Confirmations are recorded exactly while valid, new and needed.", "quantifier": "all states and histories of requests, confirmations, corroborations, administrative changes and author changes", "why_tests_cant": "set-up happens on five code paths (publish, queue advance, replay, removal, instance change) in unbounded histories", "anchors": ["pallets/eth-bridge/src/tx.rs: set_up_active_tx, assign_sender", "pallets/eth-bridge/src/request.rs: add_new_send_request, process_next_request", "pallets/eth-bridge/src/types.rs: extend_params", "pallets/eth-bridge/src/lib.rs: add_confirmation"]}
{"id": "C80", "title": "Bridge outcomes are delivered once and recorded faithfully", "statement": "The rest of the runtime is changed by the bridge only through the outcome notifications, each delivered exactly once and in order; a transaction's settled record changes only when a corroboration decides it, and then holds the function, confirmed parameters, sender, outcome and hash of that very request.", "quantifier": "all states, histories and behaviours of the notified pallets", "why_tests_cant": "notifications are sent from nested queue processing whose length depends on which waiting requests can be set up", "anchors": ["pallets/eth-bridge/src/tx.rs: finalize_state, complete_transaction", "pallets/eth-bridge/src/request.rs: process_next_request, complete_lower_proof_request"]}
{"id": "C81", "title": "Valid mints are never refused for an id", "statement": "As long as the hash function has no collision among the strings the NFT pallet hashes for ids, the id of a new single NFT or of a new batch is never already in use, so a mint with a fresh non-empty external reference and valid royalties always succeeds, and a mint from a batch is refused for its id only if that very index of that very batch was minted before.", "quantifier": "all histories of mints, batch creations, batch mints, listings, transfers and cancellations, and all hash functions free of collisions on the hashed strings", "why_tests_cant": "the id is a hash of the authority and an ever-growing counter (or of batch id and index); freshness must hold against every id ever created in an unbounded history", "anchors": ["pallets/nft-manager/src/lib.rs: generate_nft_id, mint_single_nft, signed_mint_single_nft", "pallets/nft-manager/src/batch_nft.rs: generate_batch_id, generate_batch_nft_id, process_mint_batch_nft_event"]}
{"id": "C82", "title": "The growth reported to Ethereum is what was set aside", "statement": "With growth reporting enabled, the eras for which a reward was set aside are counted once each, in order, and grouped into growth periods; the stored record of a period not yet paid out, and the figures published for it, are the sum of the rewards set aside for its eras and the (average) total stake recorded when those eras began. Periods are published in order and only when complete.", "quantifier": "all genesis states, all histories of blocks, staking calls, bridge answers and growth payouts with growth enabled", "why_tests_cant": "the figures accumulate over many eras; bridge answers, payouts and failed publications interleave with the accumulation", "anchors": ["pallets/parachain-staking/src/lib.rs: update_collator_payout, accumulate_payout_for_period, is_new_growth_period, trigger_outstanding_growths, trigger_growth, prepare_staking_payouts, start_new_era"]}
{"id": "C83", "title": "Validators are reported for exactly the offences they committed", "statement": "Summary: a call leads to an offence report exactly in these cases and against exactly these accounts: approval of a root (those who voted against it), an unsuccessful vote on a root (its proposer and those who voted for it), the end of a slot during which no root was validated (the holder of that slot; the first slot is exempt), and the end of a slot by a challenge (the holder of that slot).", "quantifier": "every genesis configuration, every history of calls and callbacks, every next call", "why_tests_cant": "which slot had a summary and who held it depends on the whole history of proposals, votes, challenges and configuration changes", "anchors": ["pallets/summary/src/lib.rs: register_offence_if_no_summary_created_in_slot, end_voting, add_challenge, update_slot_number"]}
{"id": "C84", "title": "What is staked is covered by the staker's own free balance", "statement": "For every history of staking calls in which the balances pallet never lets a balance drop below a lock, everything an account has staked, as a candidate's own bond or as the sum of its nominations, is at most that account's free balance; and a call (nominate, bond extra, spread a nomination or a top-up over several collators, join as a candidate, raise a candidate's bond) whose amount, on top of what the account has staked, exceeds its free balance is refused and changes nothing.", "quantifier": "all accounts, amounts, free balances, staking parameters and histories of staking calls and balance changes that respect the locks", "why_tests_cant": "Tests nominate a few fixed amounts; that no interleaving of nominations, top-ups, kicks, revocations and balance changes lets the same funds back two stakes needs an invariant over every history.", "anchors": ["pallets/parachain-staking/src/lib.rs: get_nominator_stakable_free_balance, get_collator_stakable_free_balance, nominate, bond_extra, split_and_nominate, join_candidates", "pallets/parachain-staking/src/types.rs: Nominator, CandidateMetadata"]}
{"id": "C85", "title": "What authors sign for Ethereum binds the whole request", "statement": "The hash authors sign to confirm a request to Ethereum determines the request: two requests or lower proofs whose signed hashes are equal are the same kind of message with the same values, transaction id and expiry, for the same Ethereum chain id, bridge contract, domain name and domain version - unless the strings hashed on the way contain a Keccak collision. In particular a signature gathered for one request, one lower or one bridge instance cannot be used for another, and a lower's proof hash is never a request's. Every request the runtime itself makes (publish root, trigger growth, add author, remove author) and every lower can be hashed without error or panic, and the hash covers exactly the values given plus the expiry and transaction id assigned. The instance's salt is not covered, and a request with a bytes32 value of the wrong length panics.", "quantifier": "every pair of messages of all five kinds with values in the range of their Solidity types, every pair of bridge instances, every hash function, every runtime request with every value, id and expiry, and every pair of reachable bridge states", "why_tests_cant": "Distinctness of hashes ranges over all pairs of messages and all instances; a test can only compare a few hashes.", "anchors": ["primitives/avn-common/src/eth/mod.rs: create_function_confirmation_hash, create_lower_proof_hash, eip712_hash, EthBridgeInstance", "pallets/eth-bridge/src/tx.rs: set_up_active_tx", "pallets/eth-bridge/src/types.rs: extend_params"]}
{"id": "C86", "title": "The bridge contract reads exactly the confirmed request, and answers are read back exactly", "statement": "The calldata generated for a request (its parameters, expiry, transaction id and confirmations) starts with the selector of the intended contract function, and a contract decoding it by the Solidity ABI reads exactly the values that were confirmed and the confirmations in recorded order, 65 bytes each; calldata of equal types is equal only if every value is. Every runtime request with up to 100 confirmations can be encoded. The lower proof is the packed lower followed by its confirmations. The contract's status answer and transaction hashes are read back exactly; a worker reports success or failure only if the contract said so, reports the recorded hash valid only if Ethereum's call data for it is byte for byte the expected calldata with at least the minimum number of block confirmations, and in all other decided cases does report.", "quantifier": "every function name and parameter list, every runtime request with every value, id, expiry and list of confirmations, every lower, every answer of Ethereum, and every hash function", "why_tests_cant": "Offsets, padding and lengths depend on all values; a decoder that agrees on test vectors can still misread another argument.", "anchors": ["pallets/eth-bridge/src/eth.rs: abi_encode_function, generate_send_calldata, generate_corroborate_calldata, generate_encoded_lower_proof, corroborate, check_tx_status, check_tx_hash, process_tx_hash, process_corroborate_result"]}
{"id": "C87", "title": "An author's signature is good for one action only", "statement": "The bytes an author's AvN key signs determine the action: a confirmation, Ethereum transaction hash, corroboration, vote on discovered events or on the latest Ethereum block (each for one bridge instance), an event check result, the processing or challenge of an event, a recorded root, an advanced slot, a vote on a root, an end of voting, a challenge of a root (each for one Summary instance), a request for an Ethereum signature or for sending a transaction. Two different actions never have the same signed bytes, so a signature given for one action cannot be replayed as another, in another pallet or in another instance - unless a hash begins like an encoded context or equals an account.", "quantifier": "every pair of actions of all fifteen kinds with all their contents, every pair of instances", "why_tests_cant": "Two encodings of different length and structure can coincide for particular contents; only a proof over all contents excludes it.", "anchors": ["pallets/eth-bridge/src/call.rs", "pallets/eth-bridge/src/lib.rs: validate_unsigned", "pallets/eth-bridge/src/eth.rs: sign_msg_hash, send_transaction", "pallets/ethereum-events/src/lib.rs: validate_unsigned", "pallets/summary/src/lib.rs: record_summary_validate_unsigned, advance_slot_validate_unsigned", "pallets/summary/src/vote.rs", "pallets/summary/src/challenge.rs", "pallets/avn/src/vote.rs", "primitives/avn-common/src/event_discovery.rs: encode_eth_event_submission_data"]}
{"id": "C88", "title": "Honest off-chain workers carry a bridge request through", "statement": "An author's off-chain worker submits a call only for the request in progress as of a finalised block, in its own name, and only what it is entitled to: a confirmation with its node's signature of exactly that message while confirmations are missing, a transaction hash only as the assigned sender with enough confirmations and once, a corroboration only as another author of a request that was sent or has expired, once, and exactly as its node reported. Conversely, when the workers of enough authors run (enough signers, then the sender, then a quorum of corroborators) the originating pallet is told that the request succeeded, whatever a minority of misbehaving authors smaller than the corroboration quorum submits in between and whatever other requests arrive; a supermajority of workers completes a lower proof whatever anybody else submits. With a single author neither kind of request can ever complete.", "quantifier": "all requests, all author sets of 2 to 151 authors (supermajority at most 100 for lower proofs), all schedules of worker runs, all interleaved calls of misbehaving authors, all new requests and clock changes", "why_tests_cant": "liveness ranges over all schedules and all adversarial interleavings; tests run one fixed happy path with mocked HTTP answers", "anchors": ["pallets/eth-bridge/src/lib.rs:853-947 process_active_request, process_active_tx_request", "pallets/eth-bridge/src/lib.rs:428-573 add_confirmation, add_eth_tx_hash, add_corroboration", "pallets/eth-bridge/src/request.rs:94-122", "pallets/eth-bridge/src/util.rs:10-24"]}
{"id": "C89", "title": "Authors manager: the author set changes one confirmed request at a time", "statement": "In the authors-manager pallet, at every time the author list has no duplicates, at least the configured minimum and at most 256 members; an account joins (leaves) only at the moment the Ethereum bridge reports success for a registration (removal) of exactly that account that was published before and not answered yet, and then exactly that account joins (leaves); at most one request is unanswered, and while one is, further requests are refused; a failed or dropped request changes no author and leaves nothing open. Each author has exactly one Ethereum key, keys are not shared, lookups by key and by account agree, a key belongs to an author or a pending registration, and a removal asks Ethereum to remove the author's registered key.", "quantifier": "every genesis with distinct accounts and keys within the bounds, every sequence of administrator calls, key rotations, bridge results (also foreign, failed, dropped), other pallets' publications and sessions with any active and disabled sets", "why_tests_cant": "It is an invariant over unbounded interleavings of requests, asynchronous Ethereum answers, rotations and sessions; tests run a single registration or removal and do not rotate a key before it.", "anchors": ["pallets/authors-manager/src/lib.rs: add_author, remove_author, rotate_author_ethereum_key, process_result, on_new_session, new_session"]}
{"id": "C90", "title": "An Ethereum transaction takes effect at most once, whichever of the two event pipelines brings it", "statement": "With the runtime's wiring (one record of processed transactions shared by the bridge's partition votes and by the older check/challenge/process pallet, one token manager receiving events from both): every change of the token manager is an ordinary call or the delivery of an Ethereum event; no transaction hash is delivered twice, in whatever way transactions of the two pallets, token calls, migrations and validator changes interleave; once recorded as processed by anyone it is never delivered again; the supply of every non-native token plus what was lowered equals the genesis supply plus the amounts of distinct successfully delivered deposits and refunds; a delivery by the bridge is backed by a quorum of author votes for a partition containing the event, one by the older pallet by an unchallenged check older than the challenge period.", "quantifier": "all genesis configurations, event filters, decodings of event payloads, environments met by each transaction, and all interleaved histories of both pallets and the token manager", "why_tests_cant": "the pallets' tests mock each other: no test runs both pipelines over one record, and exclusion between them must hold for every interleaving", "anchors": ["runtime/avn/src/configs/mod.rs:389-401,505-525", "pallets/eth-bridge/src/lib.rs process_ethereum_event, add_processed_event", "pallets/ethereum-events/src/lib.rs process_event", "pallets/token-manager/src/lib.rs processed_event_handler"]}
{"id": "C91", "title": "A validator's off-chain check of an Ethereum event says exactly what the receipt says", "statement": "For every receipt the node's external service returns, the worker's verdict on an announced event is: Ok with data d exactly when the transaction succeeded, its first log with the event's signature comes from the recognised contract (bridge, or one of the NFT contracts) and decodes to d, and the receipt is at least the configured number of blocks deep; Invalid exactly when it failed, has no such log, or the log is foreign or undecodable; not yet decided when it is too young; a failed request is never a verdict; and the worker never crashes.", "quantifier": "all receipts (any number of logs, topics and data), all JSON layouts of them, all announced events, all configurations and block heights", "why_tests_cant": "the outcome depends on arbitrary receipts and on the timing of two requests to Ethereum; tests use a handful of fixed JSON answers", "anchors": ["pallets/ethereum-events/src/event_parser.rs", "pallets/ethereum-events/src/lib.rs compute_result", "client/external-service/src/lib.rs get_tx_receipt, query response"]}
{"id": "C92", "title": "Honest validators challenge exactly the false check results, and enough challenges cancel them", "statement": "A validator reaching a pending check result submits a challenge if and only if the result is false of the receipt it sees; what an honest primary submits is never false, so no honest validator that sees the same receipt challenges it; and once more than a third of the validators (the quorum) have submitted their worker's challenge, processing delivers nothing and reports the submitter, whatever else happened.", "quantifier": "all histories of the pallet, all pending results, all receipts and configurations, all sets of challengers", "why_tests_cant": "the claim relates independent off-chain nodes to the chain state over arbitrary histories and sets of validators", "anchors": ["pallets/ethereum-events/src/lib.rs validate_event, get_challenge_if_required, try_validate_event, challenge_event, process_event"]}
{"id": "C93", "title": "Every announced event is eventually decided when validators are honest", "statement": "When the primary of a block runs its worker, the first finalised event of the queue is checked and moves to the pending list; a pending result stays there until it is processed; and once its challenge period is over the primary's worker has it processed, delivering a genuine unchallenged event to its handler. No announced event can keep others from being decided.", "quantifier": "all queues, all announced events and their receipts, all histories in which validators' transactions come from their workers, however stale their view", "why_tests_cant": "liveness over unbounded histories of many nodes; tests drive single worker runs with friendly events", "anchors": ["pallets/ethereum-events/src/lib.rs offchain_worker, check_event_and_submit_result, get_next_event_to_process, validate_unsigned", "primitives/avn-common/src/event_types.rs EventData::is_valid"]}
{"id": "C94", "title": "A validated summary root is the Merkle root of the finalised chain", "statement": "When a root is validated for a block range, its hash is the Merkle root of all extrinsics of the finalised blocks of that range in order (zero when there are none), provided fewer dishonest authors than the quorum approved it; and a root proposed by an honest author's worker is always that hash for the range it is proposed for. Honest authors are never blamed.", "quantifier": "all histories of the summary pallet in which honest authors act only through their off-chain worker, run on any earlier state of the history with any view of the finalised chain; arbitrary behaviour of everybody else; all hash functions", "why_tests_cant": "relates the off-chain computation of many nodes over stale views to the on-chain voting over unbounded histories and forks", "anchors": ["pallets/summary/src/lib.rs offchain_worker, process_summary_if_required, cast_votes_if_required, compute_root_hash, end_voting_if_required", "pallets/summary/src/vote.rs", "client/extrinsic-utils/src/summary_utils.rs get_extrinsics, generate_tree_root", "client/external-service/src/lib.rs roothash"]}
{"id": "C95", "title": "Summaries make progress when authors run their workers", "statement": "In every reachable state the slot validator whose target block is old enough submits the root of exactly the next range, and the chain accepts it and opens its vote; every author with a root it may vote on votes, for it exactly if it is the true root; as soon as a quorum of approvals has arrived the root is validated; a vote whose period is over without outcome is ended by any author and the range can be proposed again; the slot validator ends its slot in time, and otherwise, with at least two authors, some other author's worker challenges it within two blocks and the slot advances.", "quantifier": "all reachable states, all nodes and their views of the chain, all sets and orders of voters", "why_tests_cant": "progress claims about independent workers in arbitrary reachable states; tests drive single hand-made situations", "anchors": ["pallets/summary/src/lib.rs offchain_worker, record_summary_calculation, approve_root, end_voting_period, advance_slot, add_challenge", "pallets/summary/src/challenge.rs", "pallets/summary/src/vote.rs"]}
{"id": "C96", "title": "Every discovered event handed to the runtime is a genuine bridge event", "statement": "If the honest authors' nodes run the discovery task against Ethereum nodes that agree on all blocks with 20 successors, and fewer dishonest accounts than the quorum ever voted for a partition that was processed, then every event the bridge hands to the runtime is a log of the bridge contract on the finalised Ethereum chain, of a kind the bridge handles, with the transaction and data of that log - whatever the dishonest authors submit and however stale the states the nodes read are.", "quantifier": "all histories of calls from genesis, all Ethereum chains, all honest nodes' views beyond finality, query times and hash-map orders, all dishonest calls, all handlers", "why_tests_cant": "needs an adversary who submits any partition at any time and node queries interleaved with any chain progress; tests check single rounds and single votes", "anchors": ["client/external-service/src/ethereum_events_handler.rs query_runtime_and_process, process_events, submit_latest_ethereum_block", "client/external-service/src/web3_utils.rs is_eth_block_finalised", "pallets/eth-bridge/src/lib.rs submit_ethereum_events, process_ethereum_events_partition", "runtime/avn/src/apis.rs EthEventHandlerApi"]}
{"id": "C97", "title": "Discovery loses no bridge event it has passed", "statement": "Under the same conditions, once discovery has moved past a block at or after the selected start block, every genuine bridge event in that block which is the only bridge event of its transaction has been handed to the runtime, unless its transaction was recorded as processed by another pallet or a migration: it is in some partition of its range, no partition of a range is skipped, and no range between the start block and the active range is skipped.", "quantifier": "all histories from genesis, all chains, ranges with any number of partitions, additional transactions queued at any time, honest nodes with any views beyond finality, dishonest authors' arbitrary calls", "why_tests_cant": "a completeness claim over unboundedly many ranges, partitions and votes; tests process one partition of hand-made events", "anchors": ["client/external-service/src/ethereum_events_handler.rs execute_event_processing, identify_events", "primitives/avn-common/src/event_discovery.rs create_partitions, next_range", "pallets/eth-bridge/src/lib.rs advance_partition, submit_latest_ethereum_block"]}
{"id": "C98", "title": "Event discovery makes progress when a quorum of authors run their tasks", "statement": "While no start block is selected, as soon as a supermajority of authors have run their discovery task a range becomes active. While a range is active and its end is final for them, the tasks of all honest authors vote for one and the same partition, the active one, whatever they read and in whatever order, and as soon as a quorum of them have voted the partition is processed and discovery moves on.", "quantifier": "all honest histories with dishonest authors' arbitrary calls, all nodes' views beyond finality, hash-map orders, orders of votes, partitions of any number, changing author sets", "why_tests_cant": "agreement of independently computed votes in arbitrary reachable states; tests vote with copies of one hand-made partition", "anchors": ["client/external-service/src/ethereum_events_handler.rs query_runtime_and_process, execute_event_processing, identify_additional_events", "pallets/eth-bridge/src/lib.rs submit_ethereum_events, submit_latest_ethereum_block", "primitives/avn-common/src/event_discovery.rs create_partitions"]}
{"id": "C99", "title": "Deposits end to end: a lift on Ethereum is credited once and exactly, and nothing else is", "statement": "Provided that whenever a partition of events was processed fewer dishonest accounts than the quorum had voted for it, and honest authors' calls come from their nodes: (1) every event the bridge pallet delivers to the token manager carries exactly the data of a log of the bridge contract on the final Ethereum chain; (2) every LogLifted the bridge contract emitted in a block that discovery has passed, alone in its transaction and not recorded as processed by a migration or the older pallet, has been delivered exactly once, crediting exactly the logged amount of the logged token to the logged account and nothing else, unless the amount is zero or the balance would overflow; (3) for every non-native token, the parachain supply plus what was lowered never exceeds the genesis supply plus what the bridge contract's logs say was deposited or returned, plus what the older path created; (4) lifts to the prediction market are taken and reported as successful but credit nobody.", "quantifier": "every history of the runtime (votes, admin calls, migrations, author changes, the older events pallet, all token-manager calls), every Ethereum chain, every honest node's view, latest block and hash order, every dishonest vote below the quorum", "why_tests_cant": "the claim spans the node's log parsing, partition construction, voting, the pallet's bookkeeping and the token manager over unbounded histories; tests exercise each pallet alone with a handful of events", "anchors": ["client/external-service/src/ethereum_events_handler.rs: query_runtime_and_process, process_events, parse_log", "pallets/eth-bridge/src/lib.rs: submit_ethereum_events, process_ethereum_events_partition, process_ethereum_event", "pallets/token-manager/src/lib.rs: processed_event_handler, process_lift", "runtime/avn/src/configs/mod.rs: BridgeInterfaceNotification, ProcessedEventHandler"]}
{"id": "C100", "title": "A lower is never lost between the token pallet and the bridge", "statement": "With the token pallet and the bridge connected as in the runtime: a lower's proof is pending in the token pallet exactly when the bridge holds one accepted, unanswered request for it, with the same parameters; once tokens were taken for a lower, its parameters stay in exactly one of pending, ready or failed until a claim or revert event for that lower arrives; every such entry goes back to one scheduled lower whose amount was taken from the sender and whose parameters are unchanged; every lower ready to claim has a proof of pairwise different signatures, at least a supermajority of the authors at that moment, each recovered to an account that was an author when it submitted it, over the hash of exactly those parameters; and a failed or ready lower can be requested again whenever lowering is enabled and the bridge has room.", "quantifier": "every history of calls of the two pallets, confirmations, administrator removals, changes of the author set and other runtime activity, of any length, starting with no lower and no request, without a manual root execute_lower and with fewer than 2^32 lowers", "why_tests_cant": "the two pallets keep their own tables and only meet through callbacks in the middle of other calls; a mismatch shows only for particular interleavings of scheduling, queueing, failure, removal and regeneration, and tests mock the other pallet", "anchors": ["pallets/token-manager/src/lib.rs:settle_lower", "pallets/token-manager/src/lib.rs:regenerate_lower_proof", "pallets/token-manager/src/lib.rs:process_lower_proof_result", "pallets/eth-bridge/src/lib.rs:generate_lower_proof", "pallets/eth-bridge/src/request.rs:process_next_request", "pallets/eth-bridge/src/request.rs:complete_lower_proof_request", "runtime/avn/src/configs/mod.rs"]}
{"id": "C101", "title": "A lower that enough authors confirm becomes claimable", "statement": "While the bridge works on the proof of a lower, as soon as signatures over its hash by current authors have been submitted, all different and together with those already collected at least a supermajority of the authors, the lower becomes ready to claim for exactly the parameters requested, whatever else happens in between; no change of the author set can leave it stuck.", "quantifier": "every reachable state with an active lower proof and every continuation in which the administrator does not remove it, with any interleaving of other calls", "why_tests_cant": "completion is evaluated only inside the call that adds a confirmation and against the author set of that moment; the failing case needs the author set to change between two confirmations", "anchors": ["pallets/eth-bridge/src/lib.rs:add_confirmation", "pallets/eth-bridge/src/request.rs:has_enough_confirmations", "pallets/eth-bridge/src/request.rs:complete_lower_proof_request", "pallets/token-manager/src/lib.rs:process_lower_proof_result"]}
{"id": "C102", "title": "The node's Ethereum key signs and sends only what its own key authorised", "statement": "The HTTP service that holds an author's Ethereum key signs a digest or submits a transaction only for a request whose X-Auth header is a signature of exactly that digest, or of exactly that sender, target and data, by one of the node's own avnk keys; it uses the only Ethereum key in the keystore; a token for one purpose serves no other; a send request submits at most two raw transactions, the second only after the first was refused for its nonce, at most one is accepted and its hash is the answer; the worker's own correctly authorised requests are served.", "quantifier": "every history of requests (any bodies, headers, keystore contents), restarts and answers of the Ethereum node", "why_tests_cant": "Bodies, headers and orders of requests are adversarial; a test checks a handful of them, and the retry path depends on answers of Ethereum.", "anchors": ["client/external-service/src/lib.rs: start, send_main, send_tx, validate_authorisation_token, sign_digest_from_keystore", "client/external-service/src/keystore_utils.rs: get_eth_address_bytes_from_keystore, get_priv_key, authenticate_token", "primitives/avn-common/src/http_data_codec/mod.rs"]}
{"id": "C103", "title": "Requests without a valid token are answered with an error and change nothing", "statement": "A sign or send request whose token is missing, malformed or for something else leaves the service unchanged, is not served, and is answered with an error; the endpoints that need no token change nothing. (Missing: a sign request whose body is the hex of any other number of bytes than 32 makes the handler panic before the token is looked at.)", "quantifier": "every request body, header, keystore and state of the service", "why_tests_cant": "The failing case is one among all bodies an unauthenticated caller may choose.", "anchors": ["client/external-service/src/lib.rs: start (eth/sign_hashed_data), validate_authorisation_token, send_main, view_main, tx_query_main"]}
{"id": "C104", "title": "Transactions sent to Ethereum never replace each other and leave no nonce unused", "statement": "The transactions Ethereum accepts from the node carry strictly increasing nonces, consecutive and starting at Ethereum's transaction count when no nonce is refused as too low. (Missing: after a restart the nonce of a still pending transaction is used again; after a transaction dropped by Ethereum, or a change of the node's Ethereum key, all later transactions stay above the account's count until a restart.)", "quantifier": "every history of requests and answers of the Ethereum node", "why_tests_cant": "The cached nonce is the product of the whole history, and the failures need restarts and dropped transactions at particular points.", "anchors": ["client/external-service/src/web3_utils.rs: Web3Data::get_nonce, increment_nonce, get_nonce_from_ethereum, build_raw_transaction", "client/external-service/src/lib.rs: send_main, send_tx, error_due_to_low_nonce"]}
{"id": "C105", "title": "A runtime upgrade loses no request of the bridge", "statement": "After the storage migrations of an upgrade the bridge holds the same active request and the same queue, in the same order, as before: ids, callers, parameters, confirmations, transaction data and times are unchanged, and the packed parameters of a lower are extended by zeros, from which the same token, amount, recipient and id are read. Running the migrations again changes nothing. (Missing: on a chain whose storage is at version 3 or before, an active lower proof an author has already confirmed can be misread.)", "quantifier": "every stored request and queue within the limits of the stored types, and every stored version", "why_tests_cant": "The migrations reinterpret bytes with other types; whether a value is misread depends on its bytes, and no test ranges over them.", "anchors": ["pallets/eth-bridge/src/migration.rs: EthBridgeMigrations::on_runtime_upgrade, migrate_to_v3, migrate_to_v4, migrate_to_v5, resize_lower_params_to_v5", "runtime/avn/src/lib.rs: Executive"]}
{"id": "C106", "title": "A runtime upgrade loses no lower and indexes every author's Ethereum key", "statement": "After an upgrade every failed, pending and ready lower is found under its id in the map it was in, with its parameters extended by zeros and its proof unchanged; the lower schedule period is set only on a chain that had none; every account with an Ethereum key is found in the account index; running the migrations again changes nothing.", "quantifier": "every content of the stored maps and every stored version", "why_tests_cant": "It ranges over all contents of the maps and all earlier versions.", "anchors": ["pallets/token-manager/src/migration.rs: SetLowerSchedulePeriod::on_runtime_upgrade, set_lower_schedule_period, translate_lower_data", "pallets/validators-manager/src/migration.rs: ValidatorsManagerMigrations::on_runtime_upgrade, populate_reverse_map"]}
{"id": "C107", "title": "The bridge reports exactly the authors whose votes it overruled", "statement": "When a bridge transaction is settled with an outcome, the authors recorded as having corroborated the contrary outcome of that attempt, and only they, are reported for an offence, in the name of the assigned sender; when a partition of Ethereum events is processed, the authors recorded as having voted for another partition of the same range and number, and only they, are reported, in the name of the author whose vote completed the quorum. No other call of the bridge reports anybody; the sender, the deciding author and whoever agreed are never reported. A report reaches the offence handler, which announces (and, if enabled, slashes) an account only if the bridge named it in the same session, and at most once between two registrations.", "quantifier": "all histories of calls of both halves of the bridge, sessions, registrations and other offences, all author sets, all votes", "why_tests_cant": "the reported accounts depend on the whole history of votes of an attempt or a position, and on the reports of the whole session", "anchors": ["pallets/eth-bridge/src/offence.rs: create_and_report_bridge_offence", "pallets/eth-bridge/src/tx.rs: complete_transaction", "pallets/eth-bridge/src/lib.rs: process_ethereum_events_partition", "pallets/avn-offence-handler/src/lib.rs: on_offence"]}
{"id": "C108", "title": "Honest authors are never reported or punished by the bridge", "statement": "An author that corroborates every attempt at a transaction with its true outcome, and votes on Ethereum events only through its discovery task on a node that agrees with the finalised Ethereum chain, is never reported by the bridge, hence never announced or slashed because of it, as long as fewer authors than the quorum do otherwise; and the outcome told to the originating pallet is the true one. (False of the code when an additional transaction is queued whose block is after the active range: honest nodes then vote differently.)", "quantifier": "all histories, all Ethereum chains and node views that agree on final blocks, all behaviours of the dishonest authors", "why_tests_cant": "it quantifies over all interleavings and over what honest nodes see at different times", "anchors": ["pallets/eth-bridge/src/offence.rs", "pallets/eth-bridge/src/tx.rs: finalize_state", "pallets/eth-bridge/src/lib.rs: submit_ethereum_events", "node/src/ethereum_events_handler (discovery task)"]}
{"id": "C109", "title": "Validators are exactly the staking candidates who are not leaving", "statement": "At any time the validators of the validator register are exactly the staking candidates that are not leaving; a candidate is leaving exactly if Ethereum confirmed its removal and its exit is still recorded (once). When Ethereum confirms a removal, staking always accepts it: the account stops being a validator, its exit is scheduled with the current delay, and nobody else is affected. When the exit is due and a session starts, the exit takes place: the bond is unlocked and the record deleted. A candidate leaves staking only after a confirmed removal, and a candidate's bond is always locked, nobody else's is.", "quantifier": "all histories of requests, results from Ethereum, staking calls, session keys, blocks and session changes, all parameter values", "why_tests_cant": "three pallets keep separate registers of members and call each other; agreement must survive every interleaving", "anchors": ["pallets/validators-manager/src/lib.rs: add_collator, remove_validator, process_result, clean_up_collator_data, clean_up_staking_data, on_new_session", "pallets/parachain-staking/src/lib.rs: join_candidates, schedule_leave_candidates, execute_leave_candidates, on_initialize", "runtime/avn/src/configs/mod.rs"]}
{"id": "C110", "title": "The list of authors follows the selected collators two sessions later", "statement": "The list of authors changes only when a session starts, and a session starts only with a block that ends an era or follows a forced one. Then the authors are exactly those queued when the previous session started, with the session keys of that moment, and those queued next are the selected collators with session keys, in order. No account and no key is listed twice, and a session key never has two owners. The list is never empty. (False of the code: collators may remove their session keys.)", "quantifier": "all histories of requests, results, staking calls, session keys, blocks and sessions", "why_tests_cant": "it relates three lists over unbounded histories of key changes and eras", "anchors": ["pallets/parachain-staking/src/session_handler.rs", "pallets/avn/src/lib.rs: on_new_session", "runtime/avn/src/lib.rs: SessionKeys"]}
{"id": "C111", "title": "A removed validator stops being an author, and authors are bonded", "statement": "As long as some candidate can be chosen as collator, every author and everyone queued to be one is a staking candidate with a locked bond, and an account that stays out of the validator list is not selected after one more session, not queued after two and not an author after three.", "quantifier": "all histories from genesis and all continuations in which the account does not register again, and in all of whose states some candidate is eligible", "why_tests_cant": "it is a liveness bound over arbitrary continuations across three pallets", "anchors": ["pallets/parachain-staking/src/session_handler.rs: new_session", "pallets/parachain-staking/src/lib.rs: select_top_candidates, compute_top_candidates", "pallets/validators-manager/src/lib.rs: process_result"]}
{"id": "C112", "title": "A confirmed registration makes the account a validator with exactly the requested bond", "statement": "The deposit kept for a registration is the one in the request (the minimum of that time if none was given). When Ethereum confirms the registration, the account becomes a validator and an active staking candidate with exactly that bond, locked, and nobody else is affected; if staking refuses, nothing at all changes. While a change waits for Ethereum, other changes are refused. A confirmed registration always completes. (The last sentence is false of the code: the registrant can nominate, spend the deposit or remove its session keys before the result arrives.)", "quantifier": "all histories, all deposits, all behaviours of the registrant between request and result", "why_tests_cant": "the registrant can act in arbitrarily many ways between the request and the result", "anchors": ["pallets/validators-manager/src/lib.rs: add_collator, process_result", "pallets/parachain-staking/src/lib.rs: join_candidates"]}
{"id": "C113", "title": "A transaction corroborated on Ethereum leaves the bridge", "statement": "When enough authors corroborate the success (or failure) of the active request, the request leaves the bridge and the next one in the queue follows, whatever the pallet that asked for it does with the result. (False of the code: if that pallet refuses a success, the deciding corroboration fails and the request stays active; a registrant can make this happen, which blocks all transactions to Ethereum until the administrator removes the request.)", "quantifier": "all histories of bridge calls after the result, all states of the originating pallet", "why_tests_cant": "it quantifies over all histories of votes and all behaviours of the pallets behind the bridge", "anchors": ["pallets/eth-bridge/src/tx.rs: complete_transaction", "pallets/eth-bridge/src/lib.rs: add_corroboration", "pallets/validators-manager/src/lib.rs: process_result"]}
{"id": "C114", "title": "Two bridges with one record deliver no Ethereum event twice and lose no record", "statement": "When two bridge instances share the record of processed events (as the test runtime sets them up), the events of one Ethereum transaction are delivered at most once by both together, and never if the transaction is on record, with either instance. Moving the second instance's old records to the main one never loses a record nor the fact that a transaction was accepted; with spare weight and equal networks it moves 64 records per block until none are left, and otherwise nothing. An event of the second instance has no effect unless both are on the same network. (False of the code: records not moved yet are not seen; and 64 records the main instance refuses hold up all others for good.)", "quantifier": "all histories of both instances, all contents of both records, any iteration order of storage", "why_tests_cant": "it ranges over all interleavings of processing and migration and all contents of the records", "anchors": ["pallets/eth-bridge/src/lib.rs: on_idle, migrate_events_batch, get_events_to_migrate, add_processed_event, process_ethereum_event", "runtime/test/src/configs/mod.rs"]}
{"id": "C115", "title": "An author's report waiting in the pool is not displaced, and is held up only by one of its own on the same matter", "statement": "Once a validator's unsigned report (a root, a vote, the end of a vote, a check result, a challenge, a confirmation, a transaction hash, a corroboration, an events vote, a latest block) is in the transaction pool, nothing that arrives later displaces it. Votes, roots, check results and challenges are taken into a block before the bridge's reports. Two reports keep each other out exactly if they are on the same matter, and votes, challenges and the bridge's reports are on the same matter only if they name the same author. (False of the code: check results, processing of events, roots and slots are keyed without the author, so a false check result that comes first keeps the honest one out; votes on roots of two Summary instances with the same blocks keep each other out; and the bridge's reports are keyed with their signature, so an author's copies are not limited.)", "quantifier": "all sequences of arrivals and departures, all reports, authors and signatures, any hash function", "why_tests_cant": "the tags are byte strings put together from variable-length parts; that no two different matters give the same tag has to hold for all of them, and the order of arrivals is arbitrary", "anchors": ["pallets/eth-bridge/src/lib.rs:ValidateUnsigned", "pallets/ethereum-events/src/lib.rs:add_validator_log", "pallets/summary/src/lib.rs:ValidateUnsigned", "pallets/avn/src/vote.rs:approve_vote_validate_unsigned", "pallets/summary/src/challenge.rs:add_challenge_validate_unsigned"]}
{"id": "C116", "title": "The pool refuses a validator's report once it was executed", "statement": "After a validator's unsigned report was executed with effect, the transaction pool refuses it from then on, so that a published report cannot be put into further blocks by whoever saw it. Proved for votes on roots, ends of votes (which also stop further votes), advances of a slot, check results of events and processing of events. (False of the code: recorded roots, challenges of slots, challenges of events and all reports to the bridge are admitted again and again as long as the signer is a validator, at the highest priority and without a fee.)", "quantifier": "all states, all later histories of the pallet, all validators and signatures", "why_tests_cant": "the refusal has to survive any later history: sessions that end, slots that pass, validator sets that change", "anchors": ["pallets/summary/src/lib.rs:ValidateUnsigned", "pallets/ethereum-events/src/lib.rs:ValidateUnsigned", "pallets/eth-bridge/src/lib.rs:ValidateUnsigned", "pallets/avn/src/vote.rs:approve_vote_validate_unsigned"]}
{"id": "C117", "title": "A validator's report executed a second time changes nothing", "statement": "After a validator's report was taken into account, executing it again at any later time changes no state: a vote, the end of a vote, a recorded root, a check result, the processing of an event, a challenge of a slot, a vote on incoming events, a vote on the latest Ethereum block, and a corroboration (also while later attempts of the same transaction are under way). (False of the code for the report of an Ethereum transaction hash: a report for an attempt that failed sets the old, invalid hash for a later attempt with the same sender, and the true hash is then refused; for corroborations after the bridge instance was set again, for votes on events after an administrator's restart, and for challenges of an event from the 51st on.)", "quantifier": "all histories before and after the report (without the administrator's resets named), all validators, ids, hashes, numbers of attempts", "why_tests_cant": "reports are public once in a block and can be handed in again at any time; the effect depends on the whole history in between", "anchors": ["pallets/summary/src/lib.rs:approve_root", "pallets/ethereum-events/src/lib.rs:submit_checkevent_result", "pallets/eth-bridge/src/lib.rs:add_eth_tx_hash", "pallets/eth-bridge/src/lib.rs:add_corroboration", "pallets/eth-bridge/src/lib.rs:submit_ethereum_events"]}
{"id": "C118", "title": "Native token supply across all pallets", "statement": "Counting the native balances of all accounts and fees that were taken and not yet settled, the total number of native tokens changes in each step by exactly the amounts of accepted lifts and reverted lowers minus the amounts of executed lowers; transfers, relayer fees, transaction fees and their refunds, staking calls, era rewards, treasury payments and refused calls change it by nothing; a growth lift adds exactly the lifted amount when it is accepted and nothing when it is rejected.", "quantifier": "every genesis, every history of token manager calls and events, staking calls and blocks, transfers and fees, in any order", "why_tests_cant": "Each pallet's tests run over its own mock currency; that nothing is created or lost when they share one balance map, under every interleaving and every rounding, needs a proof about the whole.", "anchors": ["runtime/avn/src/configs/mod.rs:DealWithFees", "pallets/token-manager/src/lib.rs:process_growth_lift", "pallets/token-manager/src/lib.rs:settle_lower", "pallets/parachain-staking/src/lib.rs:payout_collators", "pallets/avn-transaction-payment/src/lib.rs:correct_and_deposit_fee"]}
{"id": "C119", "title": "Stakes stay covered in the whole system", "statement": "In every reachable state of the system the amount an account has staked, as a candidate or by all its nominations, is at most its native balance: no transfer, lower, transaction fee, relayer fee, treasury payment or event takes staked tokens, and balance changes by other pallets never lead the staking pallet into a state its own calls could not reach.", "quantifier": "every genesis, every history of all pallets' steps in any order, every account except the pot", "why_tests_cant": "Tests check a few transfers against a few locks; the claim is about all ways of moving tokens in all orders.", "anchors": ["pallets/parachain-staking/src/lib.rs:COLLATOR_LOCK_ID", "pallets/token-manager/src/lib.rs:transfer_avt", "pallets/avn-transaction-payment/src/lib.rs:withdraw_fee", "runtime/avn/src/configs/mod.rs"]}
{"id": "C120", "title": "Only the payer pays", "statement": "A step lowers the native balance of at most one account: the sender of a transfer (plain, signed or relayed), the payer of a transaction fee, relayer fee or treasury payment, the sender of an executed lower, the treasury in a root call, or the pot in the hooks of a block. Staking calls move no tokens at all, and a signed or relayed transfer lowers the sender's balance only with the sender's signature over exactly these parameters and current nonce.", "quantifier": "every reachable state of the system, every step with every parameter, every account", "why_tests_cant": "Tests look at the accounts they name; that no other account is ever debited ranges over all accounts, states and parameters.", "anchors": ["pallets/token-manager/src/lib.rs:signed_transfer", "pallets/token-manager/src/lib.rs:proxy", "pallets/parachain-staking/src/lib.rs", "pallets/avn-transaction-payment/src/lib.rs:withdraw_fee"]}
{"id": "C121", "title": "Messages from other chains spend only the sender's accounts", "statement": "Whatever a message from the relay chain or a sibling parachain contains, it lowers the native balance of an account only if the sender owns that account (a sibling: its one sovereign account; the relay chain: its own and the parachains' sovereign accounts), or by relaying a transfer the account's owner has signed. Staked tokens stay covered.", "quantifier": "every message (any list of instructions, with any of them failing), every sender, every state, every history of messages and all other steps", "why_tests_cant": "Messages are arbitrary programs; tests run a handful of fixed ones, and the runtime has none.", "anchors": ["runtime/avn/src/configs/xcm_config.rs:LocationToAccountId", "runtime/avn/src/configs/xcm_config.rs:XcmConfig", "runtime/avn/src/configs/mod.rs:MessageProcessor"]}
{"id": "C122", "title": "Messages from other chains never act as root or as a local user", "statement": "A call made by a message from the relay chain or a sibling parachain is never dispatched as root, and if it is dispatched as an account then as one the sender owns; the accounts owned from outside are pairwise different and none of them is the staking pot or the treasury. Calls reserved to root are refused to every message.", "quantifier": "every message, at every point of its execution, every kind of origin asked for, all parachain ids", "why_tests_cant": "Quantifies over all programs that may change the origin before the call, and over all 2^32 ids.", "anchors": ["runtime/avn/src/configs/xcm_config.rs:XcmOriginToTransactDispatchOrigin", "runtime/avn/src/configs/xcm_config.rs:LocationToAccountId"]}
{"id": "C123", "title": "Messages from other chains create no native tokens", "statement": "No message from the relay chain or a sibling parachain increases the total number of native tokens (balances, unsettled fees and trapped tokens): native tokens come only from Ethereum. (False of the code: the relay chain's token is taken for the native currency, so the relay chain's reserve transfers create native tokens. Siblings create nothing, and the total changes by exactly what executed instructions declare as deposited by the relay chain minus what they send away.)", "quantifier": "every message, every state, every history of messages and all other steps", "why_tests_cant": "Supply must be right for all programs and all histories.", "anchors": ["runtime/avn/src/configs/xcm_config.rs:LocalAssetTransactor", "runtime/avn/src/configs/xcm_config.rs:IsReserve", "runtime/avn/src/configs/xcm_config.rs:IsTeleporter"]}
{"id": "C124", "title": "The price of a transaction is what the published tariff says", "statement": "A paying transaction is charged, before its dispatch, 1 mAVT plus 5 µAVT for each byte plus 8 pAVT for each picosecond of announced computation (at most half a second) times the congestion multiplier, plus its tip; afterwards what is due is the same with the computation reported (never more than announced), or just the tip if the dispatch waived the fee, so that the correction can only be a refund. The price never falls when length, computation, congestion or tip rise, and is never below 1 mAVT plus 5 µAVT per byte. A sender without fee adjustment who can pay loses exactly the corrected price to the staking pot (all of the predicted one if the call left it without balance); one who cannot pay gets nothing executed.", "quantifier": "all lengths, computation times, multipliers, tips and post-dispatch reports; all states and dispatches", "why_tests_cant": "The price is a function of five unbounded numbers with saturating and rounding arithmetic.", "anchors": ["runtime/common/src/lib.rs: WeightToFee, TransactionByteFee", "runtime/common/src/weights/extrinsic_weights.rs: ExtrinsicBaseWeight", "runtime/avn/src/configs/mod.rs: pallet_transaction_payment::Config, DealWithFees", "pallets/avn-transaction-payment/src/lib.rs: AvnGasFeeAdapter"]}
{"id": "C125", "title": "Punishments come only from reports, once, and every report is heard", "statement": "Whatever the offence handler announces or slashes was named, since the last change of session, in a report of the summary pallet, the Ethereum events pallet, the bridge or im-online; between two registrations each validator is announced and slashed at most once, however many pallets report it; and after a report each validator named is on the handler's record, unless it registered in this very session.", "quantifier": "all interleavings of calls of the reporting pallets, session changes, registrations and configuration", "why_tests_cant": "The reports of four pallets meet in one book with per-kind, per-session memory; only histories decide.", "anchors": ["pallets/summary/src/offence.rs: create_and_report_summary_offence", "pallets/ethereum-events/src/offence.rs: create_and_report_invalid_log_offence", "pallets/eth-bridge/src/offence.rs: create_and_report_bridge_offence", "pallets/avn-offence-handler/src/lib.rs: on_offence", "runtime/avn/src/configs/mod.rs: pallet_offences::Config"]}
{"id": "C126", "title": "Reports name exactly those whose judgement or duty failed", "statement": "On the whole chain, a call of the summary pallet reports exactly the offences due (voters against an approved root, proposer and supporters of one not approved, holder of a slot that ends without a root or by a challenge), and a call of the Ethereum events pallet reports somebody only when a checked event is processed: its checker if enough validators challenged that check, otherwise whoever challenged it. A call of the bridge reports somebody only when it settles a transaction (those recorded with the opposite outcome) or makes a partition of events be processed (those recorded for other content). (False of the code: challenges of an earlier, successfully challenged check of the same event are counted again, so that a checker nobody challenged can be reported.)", "quantifier": "all histories of the chain", "why_tests_cant": "Who is to blame depends on the whole history of votes, slots, checks and challenges.", "anchors": ["pallets/ethereum-events/src/lib.rs: process_event", "pallets/ethereum-events/src/offence.rs", "pallets/summary/src/lib.rs: end_voting, advance_slot, add_challenge", "pallets/summary/src/offence.rs", "pallets/eth-bridge/src/offence.rs"]}
{"id": "C127", "title": "Every offence is announced", "statement": "Every offence reported by the summary pallet, the Ethereum events pallet or the bridge is announced by an event with its type and the offenders. (False of the code: a report about validators all of whom were reported by the same pallet earlier in the session is dropped whatever its type; so a slot ended by a challenge never announces that no summary was created.)", "quantifier": "all histories of the chain", "why_tests_cant": "Depends on everything reported earlier in the session.", "anchors": ["pallets/summary/src/offence.rs: create_and_report_summary_offence", "pallets/ethereum-events/src/offence.rs: create_and_report_invalid_log_offence", "pallets/eth-bridge/src/offence.rs: create_and_report_bridge_offence"]}
{"id": "C128", "title": "Only the sudo key or a vote for root uses root's powers", "statement": "From any state in which nothing is pending under root (other than lowers their owners asked for) and no call is whitelisted: as long as nobody who controls the sudo key makes a call and no referendum for root is approved, no privileged call (adding or removing validators, changing the bridge contract, the periods, the fees, the native token, paying from the treasury, setting code or storage or balances) is carried out, the sudo key does not change, no collator joins or leaves by itself, and lowers are executed only for accounts that asked for one. The sudo key, and an approved referendum for root, can have each of these calls carried out.", "quantifier": "every history of signed and unsigned transactions, messages from other chains, outcomes of votes and scheduled calls, with calls nested to any depth (batches, derived accounts, proxies, sudo, scheduler, whitelist, referenda)", "why_tests_cant": "A test sends one call with a wrong origin; the claim is about every way of nesting calls and every order in which pending calls, referenda and whitelisted calls come due.", "anchors": ["runtime/avn/src/lib.rs: RestrictedEndpointFilter", "runtime/avn/src/governance/mod.rs", "runtime/avn/src/governance/origins.rs", "runtime/avn/src/governance/tracks.rs: track_for", "runtime/avn/src/configs/mod.rs", "pallets/*/src/lib.rs: origin checks of all calls"]}
{"id": "C129", "title": "Collators do not join or leave by calls of their own", "statement": "join_candidates, schedule_leave_candidates, execute_leave_candidates and cancel_leave_candidates are never carried out, from whatever origin and however nested, in no history, unless the sudo key or root makes that very call in an account's name directly under sudo_as or dispatch_as. In that case they are carried out: the filter does not apply there.", "quantifier": "every history and every nesting of calls, including those of the sudo key and of root", "why_tests_cant": "The filter is a list of four calls checked at dispatch; whether some wrapper dispatches past it cannot be seen from tests of the filter.", "anchors": ["runtime/avn/src/lib.rs: RestrictedEndpointFilter", "runtime/avn/src/configs/mod.rs: BaseCallFilter"]}
{"id": "C130", "title": "What the governance origins, messages and unsigned transactions can do", "statement": "Referenda can be made only for root and the four governance origins, and no vote and no scheduled call ever acts as a user's account. Under the general admin's origin no call has any effect; under the referendum canceller's (killer's) origin ongoing referenda can be cancelled (killed) and nothing else; under the whitelisted caller's origin nothing happens while root has whitelisted nothing. A call in a message from another chain that does not map to an account has no effect. An unsigned transaction has no effect or is one of the fourteen calls meant for the validators' software.", "quantifier": "every call with any nesting, every state, every history", "why_tests_cant": "Tests check that an intended origin is accepted; that an origin can do nothing else is a claim about all calls.", "anchors": ["runtime/avn/src/governance/tracks.rs", "runtime/avn/src/governance/origins.rs", "runtime/avn/src/governance/mod.rs", "runtime/avn/src/configs/xcm_config.rs: XcmOriginToTransactDispatchOrigin"]}
{"id": "C131", "title": "Nobody acts for another account", "statement": "Each call carried out in a transaction of an account that does not control the sudo key is made by that account, by an account derived from it, or by an account whose valid proof for that very call is in the transaction, under a proxy that supports the call. Every account can make the calls that are open to all, and those that carry a proof, in its own name; a proxy runs a call that carries a valid proof in its signer's name, and nothing else.", "quantifier": "every signer, every call with any nesting, every state", "why_tests_cant": "The claim is about all nestings of batches, derived accounts and the three proxies.", "anchors": ["pallets/avn-proxy/src/lib.rs: proxy", "pallets/token-manager/src/lib.rs: proxy", "pallets/nft-manager/src/lib.rs: proxy", "runtime/avn/src/proxy_config.rs: get_proof", "runtime/avn/src/configs/mod.rs: pallet_utility, pallet_sudo"]}
{"id": "C132", "title": "Every transaction of a summary can be proved to be in it", "statement": "For a range of blocks whose root a node answers: asking for the transaction at a position (block, index) of the range yields that very transaction together with the leaves of the root's tree, and the Merkle path built from them verifies against that root. A position outside the range or past the end of a block yields no transaction; nothing is given out as proved that is not a transaction of a final block of the range.", "quantifier": "all chains of blocks and extrinsics, all ranges, all positions, every hash function", "why_tests_cant": "Tests use a few short lists; the claim is about all ranges, positions and tree shapes.", "anchors": ["client/extrinsic-utils/src/extrinsic_utils.rs: get_extrinsics_and_check_if_filter_target_exists", "client/extrinsic-utils/src/merkle_tree_utils.rs: generate_merkle_path", "client/extrinsic-utils/src/summary_utils.rs"]}
{"id": "C133", "title": "Validators change only by governance", "statement": "As long as nobody who controls the sudo key makes a call and no referendum for root is approved (and nothing is pending under root but lowers their owners asked for), an account for which no answer from Ethereum is awaited stays what it is: a validator or not, with the same Ethereum key, and a staking candidate who is not leaving or not one. In particular, from genesis on the validators are those of genesis until then.", "quantifier": "every reachable state of the chain, every account without a pending registration or removal, every history of transactions by whomever (any nesting of batches, proxies, derived accounts), messages of other chains, other referenda, blocks, staking calls, session key changes and bridge answers", "why_tests_cant": "The claim composes the dispatcher with the validator, staking, session and bridge code over unbounded histories.", "anchors": ["pallets/validators-manager/src/lib.rs: add_collator, remove_validator, rotate_validator_ethereum_key, on_new_session, process_result", "runtime/avn/src/lib.rs: RestrictedEndpointFilter, construct_runtime", "runtime/avn/src/governance/mod.rs"]}
{"id": "C134", "title": "Settings change only by governance", "statement": "Under the same condition these settings stay: whether lowering is enabled, the native token's contract and the delay of lowers; the bridge instance; the schedule and voting period of summaries and the threshold of the external vote, and no challenged root is decided by the administrator; the challenge period of submitted events; the checkpoint fees; the known senders and their terms; whether offenders are slashed.", "quantifier": "every state of each pallet and every history of transactions, messages, other referenda and steps of the pallets, of any length", "why_tests_cant": "Every path into each pallet has to be excluded, in every state and every nesting of calls.", "anchors": ["pallets/token-manager/src/lib.rs: toggle_lowering, set_lower_schedule_period, set_native_token_eth_address", "pallets/eth-bridge/src/lib.rs: set_admin_setting", "pallets/summary/src/lib.rs: set_periods, set_admin_config, admin_resolve_challenge", "pallets/ethereum-events/src/lib.rs: set_event_challenge_period", "pallets/avn-anchor/src/lib.rs: set_checkpoint_fee", "pallets/avn-transaction-payment/src/lib.rs: set_known_sender, remove_known_sender", "pallets/avn-offence-handler/src/lib.rs: configure_slashing"]}
{"id": "C135", "title": "Bridge ids, contract and the request in work do not depend on good behaviour of users", "statement": "Under the same condition, and as long as fewer than 2^32 ids were given out, the ids of the bridge's transactions strictly increase, each requester gets at most one answer per id, and each answer belongs to a request accepted with that id and requester. The Ethereum contract the transactions are made for stays the same, and the request being worked on is never dropped: it stays until the validators have decided it.", "quantifier": "every history of transactions, messages and other referenda, with any steps of the bridge, of any length below the bound of the id counter", "why_tests_cant": "The claim needs that the id counter cannot be set back by any sequence of calls.", "anchors": ["pallets/eth-bridge/src/lib.rs: set_admin_setting, publish", "pallets/eth-bridge/src/tx.rs: complete_transaction"]}
{"id": "C136", "title": "The staking settings stay without governance", "statement": "As long as nobody who controls the sudo key makes a call and no referendum for root is approved, the number of collators chosen per era, the length of an era, the delay of exits, and the minimum stakes of a collator and of a nominator stay as they are, whatever users, validators, block hooks, the bridge and other pallets do.", "quantifier": "every reachable state, and every history of calls, block hooks, session changes and bridge answers without power", "why_tests_cant": "Needs every call path of the dispatcher and every function that writes staking storage, including the hooks of blocks, exits carried out at session changes, joins caused by Ethereum's confirmations, rewards and growth payouts.", "anchors": ["pallets/parachain-staking/src/lib.rs: set_total_selected, set_blocks_per_era, set_admin_setting, on_initialize, execute_leave_candidates, payout_collators", "pallets/parachain-staking/src/session_handler.rs: should_end_session", "pallets/validators-manager/src/lib.rs: on_new_session"]}
{"id": "C137", "title": "Accounts without a key lose nothing without governance", "statement": "As long as nobody who controls the sudo key makes a call and no referendum for root is approved, an account that authorises nothing (nobody can sign for it, no call is made as it, no fee is asked of it, no lower of its tokens was requested), such as the treasury, never loses native tokens or any other token, and no lower of its tokens comes to wait.", "quantifier": "every such account, every state, and every history of transfers, lowers, lifts, fees, scheduled dispatches and bridge reports without power", "why_tests_cant": "All histories and all ways in which a call can be nested; the treasury's only exit is a root call and a scheduled lower runs later under root.", "anchors": ["pallets/token-manager/src/lib.rs: transfer_from_treasury, execute_lower, settle_transfer, settle_lower, schedule_direct_lower", "runtime/avn/src/lib.rs: construct_runtime"]}
{"id": "C138", "title": "A node reads each bridge's network from an Ethereum node of that network", "statement": "Whatever the configured Ethereum addresses answer over time, a node submits a vote about a bridge only after an address from its configuration has answered with the chain id of that bridge's network, the vote is what a discovery round of that bridge (its contract, its active range) at that address's Ethereum node results in, and all votes about one network are read from one address.", "quantifier": "all configured address lists, all answers of the addresses in every attempt and round, all sets of bridges and networks, all failures of queries, all numbers of rounds", "why_tests_cant": "The connections are made across retries, rounds and networks, depending on answers that change over time; a test fixes one list with one answer each.", "anchors": ["client/external-service/src/ethereum_events_handler.rs: initialise_web3, get_web3_connection_for_instance, query_runtime_and_process"]}
{"id": "C139", "title": "A reachable network is found", "statement": "When a configured address answers with the network of a bridge, the node connects to it and the bridge's discovery round takes place, whatever the other configured addresses do.", "quantifier": "all configured address lists and orders, all answers of the other addresses, all earlier rounds", "why_tests_cant": "Depends on the order of addresses and on which of them fail in which attempt.", "anchors": ["client/external-service/src/ethereum_events_handler.rs: initialise_web3, get_web3_connection_for_instance"]}
{"id": "C140", "title": "Every bridge gets its turn", "statement": "In every round of a node, each bridge of the runtime whose network is reachable gets its discovery round, whatever happens with the other bridges.", "quantifier": "all lists of bridges, all failures of the other bridges' queries, all histories", "why_tests_cant": "Needs several bridges with independent failures; the tests have one bridge.", "anchors": ["client/external-service/src/ethereum_events_handler.rs: query_runtime_and_process"]}
{"id": "C141", "title": "A node votes in the name of its own author", "statement": "All votes of a node are in the name of one account, which was an author of the chain when the node found it and whose signing key was in the node's keystore; the node starts voting at the first look at which some author's signing key is in its keystore.", "quantifier": "all sequences of author lists, failed queries and keystores before the start, all later histories", "why_tests_cant": "The choice depends on the order of the authors and on every look before the start, and must hold for all votes afterwards.", "anchors": ["client/external-service/src/ethereum_events_handler.rs: find_current_node_author, start_eth_event_handler"]}
{"id": "C142", "title": "Valid NFT requests are honoured", "statement": "In every history, the owner of an unlocked NFT can list it, and the owner of a listed one can sell it, hand it over or withdraw it, directly or through the proof route with a valid signature of the current nonce; a report of Ethereum settles an Ethereum listing; the creator of a batch can list it, mint from it up to its supply and end its sale. Nothing else that happened before (other owners' NFTs, other batches, nonces of others, references tried and refused) can stop such a request.", "quantifier": "all histories of NFT and batch calls, all owners, NFTs, batches, counterparties and references", "why_tests_cant": "It is a liveness claim over all earlier histories; tests show single requests accepted from fresh states.", "anchors": ["pallets/nft-manager/src/lib.rs: list_nft_open_for_sale, transfer_fiat_nft, cancel_list_fiat_nft, signed variants, process_nft_event", "pallets/nft-manager/src/batch_nft.rs: create_batch, mint_batch_nft, list_batch_for_sale, end_batch_sale"]}
{"id": "C143", "title": "Exactly the valid requests of token holders are honoured", "statement": "A transfer is carried out exactly when the account it debits submits it (itself or through the relayer named in the proof), the proof covers exactly these parameters and the account's current nonce, and the account can pay. A request to lower is put on the agenda exactly when it is the account's own, lowering is enabled, the amount is not zero and (if signed) the proof is valid; a due lower is executed exactly when lowering is enabled, the funds are still there and the bridge takes it, and else it is dropped and nothing is burned. An executed lower becomes claimable or failed by the bridge's answer, can be claimed while claimable, and can be sent for a new proof in both stages. A lift or refund is credited exactly when its amount is not zero and fits the recipient's balance.", "quantifier": "all reachable states (any history for the lower agenda), all accounts, tokens, amounts, proofs and environments", "why_tests_cant": "It is a decision for every combination of state and parameters; tests pick a few rejecting and accepting points.", "anchors": ["pallets/token-manager/src/lib.rs: signed_transfer, settle_transfer, proxy, schedule_direct_lower, schedule_signed_lower, execute_lower, settle_lower, regenerate_lower_proof, processed_event_handler, process_lower_proof_result"]}
{"id": "C144", "title": "Exactly the valid requests of chain handlers are honoured", "statement": "An account that handles no chain can register one with a name. In every history the handler of a chain can hand it to any account that handles none, and a checkpoint is accepted exactly when the chain's handler submits it, no checkpoint of the chain carries this origin id yet and the handler can pay the chain's fee; it is then stored under the next id and exactly the fee moves to the treasury. The signed variants need in addition exactly a valid proof over these parameters and the chain's current nonce, which they use up.", "quantifier": "all histories of anchor calls, all accounts, chains, names, hashes, origin ids, proofs and balances", "why_tests_cant": "Acceptance must not depend on anything else in the history; tests look at single calls from fresh states.", "anchors": ["pallets/avn-anchor/src/lib.rs: register_chain_handler, update_chain_handler, submit_checkpoint_with_identity and the signed variants"]}
{"id": "C145", "title": "Valid relayed requests are carried out", "statement": "A relayed call is accepted exactly when it is of a supported kind, the relayer is the one named in its proof and the fee offered with it, if any, is signed by its payer for this call and the payer's current payment nonce, and payable. Then exactly the fee is paid, and if the inner signature is valid the chain changes exactly as by the signer's own call (not at all if that call fails).", "quantifier": "all chain states, calls, proofs, fees, and all behaviours of the inner calls", "why_tests_cant": "The equivalence ranges over every combination of inner call, signature and fee.", "anchors": ["pallets/avn-proxy/src/lib.rs: proxy, charge_fee, verify_payment_authorisation_signature, validate_inner_call_signature"]}
{"id": "C146", "title": "Valid staking requests are honoured", "statement": "In every reachable state of the staking ledger each request succeeds exactly under its own conditions: joining, leaving, returning, going offline and online, bonding more and less for candidates; nominating, bonding more, scheduling, cancelling and executing reductions and revocations for nominators. In particular a due exit of a candidate cannot be blocked by its nominators' records, a nominator whose revocations are all due can leave whatever the minimum stake is, a nomination is only refused for lack of room when both lists are full and no smaller nomination is there, and anything free can be added to a nomination not being revoked.", "quantifier": "all reachable states of the ledger, accounts, amounts, eras and hints", "why_tests_cant": "Whether internal bookkeeping can make a valid request fail depends on the whole history of the ledger.", "anchors": ["pallets/parachain-staking/src/lib.rs: join_candidates, schedule_leave_candidates, execute_leave_candidates, cancel_leave_candidates, go_offline, go_online, nominate, bond_extra", "pallets/parachain-staking/src/nomination_requests.rs: nomination_schedule_revoke, nomination_schedule_bond_decrease, nomination_cancel_request, nomination_execute_scheduled_request, nominator_execute_scheduled_revoke_all"]}
{"id": "C147", "title": "A validator's Ethereum key reaches the bridge contract unchanged", "statement": "The chain keeps a validator's Ethereum key in 33 bytes and puts it in 64 bytes into the requests that add or remove the validator on Ethereum. The 64 bytes are sent exactly if the 33 bytes are the compressed form of a point of secp256k1, and they are then that point's two coordinates; any other 33 bytes are refused. The 64 bytes of any point compress to its 33 byte form and come back unchanged, so two different keys are never sent as the same bytes, and a hash the validators confirm covers one kind of request, one stored key and one account (up to a collision of Keccak). If root rotates only to keys that decompress, every registered key decompresses in every history and no removal is refused for its key.", "quantifier": "All 33 byte keys, all points of the curve, all pairs of requests with their instances, expiries and ids, and all histories of additions, removals, rotations, bridge answers and sessions", "why_tests_cant": "There are 2^264 inputs; which are accepted depends on whether a number is a square modulo a 256 bit prime and on the parity of the root, and tests check a handful of published keys.", "anchors": ["primitives/avn-common/src/eth_key_actions.rs:decompress_eth_public_key", "primitives/avn-common/src/eth_key_actions.rs:compress_eth_public_key", "pallets/validators-manager/src/lib.rs:send_validator_registration_to_t1", "pallets/validators-manager/src/lib.rs:send_validator_deregistration_to_t1", "pallets/authors-manager/src/lib.rs:send_author_registration_to_t1"]}
{"id": "C148", "title": "Requests to change the validator set are honoured", "statement": "Root's request to add a validator is accepted exactly if there are between 1 and 255 validators, the account is not one of them and has session keys, the Ethereum key is nobody's and decompresses, no other change is under way, staking has no objection (the account is no candidate, deposit and balance suffice) and the bridge takes the request; it then hands one request for that account to the bridge, stores key and deposit, opens one change and touches nobody else. In every history a request to remove a validator is accepted exactly if more than the minimum number are left, the account is one of them, no change is under way, its key decompresses and the bridge takes the request; the account keeps its place and key until Ethereum has answered. A rotation is accepted exactly if the old key is the account's and the new one nobody's, and changes only those two keys.", "quantifier": "All states (for removals: all states reached by any history from a good genesis), accounts, keys, deposits and answers of staking and of the bridge", "why_tests_cant": "Tests show single refusals from fixed mock states; that nothing else refuses a request, in any state a history can reach, is a statement about all of them.", "anchors": ["pallets/validators-manager/src/lib.rs:add_collator", "pallets/validators-manager/src/lib.rs:remove_validator", "pallets/validators-manager/src/lib.rs:rotate_validator_ethereum_key"]}
{"id": "C149", "title": "The legacy event pipeline honours reports, checks, challenges and processing", "statement": "A report of an Ethereum transaction is accepted exactly if its hash is not zero, the runtime takes events of that type as primary events, the event is new to the chain and fewer than 500 wait for a check; relayed, also exactly if the relayed account signed the extrinsic and the proof for its current nonce. A check result is taken exactly if the event waits for that check, the checker is the primary validator of the block it names and signed it, and the challenge period still fits. A challenge is taken exactly if the event waits under that counter, somebody else made its check, and the challenger is a validator that signed it and has not challenged the event. Processing is taken exactly if the event waits under that counter and its period has passed, and a genuine event with at most the allowed number of challenges is then handed to its handler, leaves the queue and is recorded.", "quantifier": "All states (for challenges and processing: all states reached by any history of any genesis), event types, hashes, accounts, counters, signatures and handlers", "why_tests_cant": "Each test shows one refusal or one success; that there is no further, hidden reason for refusal in any reachable state is a universal statement.", "anchors": ["pallets/ethereum-events/src/lib.rs:add_ethereum_log", "pallets/ethereum-events/src/lib.rs:signed_add_ethereum_log", "pallets/ethereum-events/src/lib.rs:submit_checkevent_result", "pallets/ethereum-events/src/lib.rs:challenge_event", "pallets/ethereum-events/src/lib.rs:process_event"]}
{"id": "C150", "title": "The summary pallet honours roots, votes, slot changes, challenges and settings", "statement": "A root is recorded exactly if it comes from the slot's validator, who is a validator now, carries the next counter and the next range, nothing is proposed or validated for that range, no vote exists under that id and the block numbers fit; its vote then opens with the quorum of that moment. A vote is counted exactly if the vote on that root is open, the voter is a validator who has not voted on it, fewer than 256 voted the same way and, if it decides, the decision can be carried out. The slot advances exactly at its time, by its validator until the grace period is over; afterwards exactly by another validator's challenge that names the current slot and its validator. Periods are taken exactly if the schedule is at least 30 blocks, voting between 25 and 28800 and shorter than the schedule, and the next slot fits; thresholds exactly between 1 and 100.", "quantifier": "All states, validators, block numbers, counters, ranges, votes, settings and answers of the bridge and of the external validator", "why_tests_cant": "A test shows a single refusal or success; that nothing else refuses a root, a vote or a challenge, whatever the state, is a universal statement.", "anchors": ["pallets/summary/src/lib.rs:record_summary_calculation", "pallets/summary/src/lib.rs:approve_root", "pallets/summary/src/lib.rs:reject_root", "pallets/summary/src/lib.rs:advance_slot", "pallets/summary/src/lib.rs:add_challenge", "pallets/summary/src/lib.rs:set_periods", "pallets/summary/src/lib.rs:set_admin_config"]}
{"id": "C151", "title": "The bridge honours requests, sender hashes, corroborations and the administrator", "statement": "A pallet's request to call the bridge contract is accepted, under the next transaction id, exactly if the name is non-empty UTF-8 of at most 32 bytes, the parameters fit, the pallet's id has at most 50 bytes, and some request is in work and fewer than the limit wait or none is in work and this one can be set up; it joins the queue or is in work, and nothing else changes. Lower proofs likewise. The hash of the Ethereum transaction is recorded exactly from the sender and once. A corroboration counts exactly if its author is another author who has not corroborated the current attempt; it is then added until a quorum decides, and the decided outcome is settled and told to the pallet, or sent again if it failed and a quorum found its hash wrong. A confirmation of a lower proof counts under the matching conditions and the last one needed hands the proof over. A removal by root is carried out exactly if a request is in work, a new instance exactly if it is valid and the request in work can be set up under it.", "quantifier": "All states, requests, parameters, authors, hashes, outcomes and behaviours of the rest of the runtime (fewer than 2^32 authors for corroborations)", "why_tests_cant": "Tests exercise single requests and votes in fixed mock states; that a valid one is never refused for some further reason and changes nothing else is a universal statement.", "anchors": ["pallets/eth-bridge/src/request.rs:add_new_send_request", "pallets/eth-bridge/src/request.rs:add_new_lower_proof_request", "pallets/eth-bridge/src/lib.rs:add_eth_tx_hash", "pallets/eth-bridge/src/lib.rs:add_corroboration", "pallets/eth-bridge/src/lib.rs:add_confirmation", "pallets/eth-bridge/src/tx.rs:finalize_state", "pallets/eth-bridge/src/lib.rs:remove_active_request_impl", "pallets/eth-bridge/src/lib.rs:set_admin_setting"]}
{"id": "C152", "title": "Event votes, block votes and requests to look for a transaction are honoured", "statement": "An author's vote for a partition of Ethereum events is accepted exactly if the bridge instance is valid, the partition is the next one of the range being voted on, the author has no event vote standing and fewer than 256 stand for it; below the quorum it stands and nothing else changes, and when it brings the quorum every event of the partition that is of a kind looked for, lies in the range and whose transaction is new and occurs once in it is handed to the runtime and recorded as the runtime answers. A vote for the first block is accepted exactly if the instance is valid, no range is being voted on, the author has no block vote standing and fewer than 256 stand for that block, which is the multiple of the range length at or below five lengths before the latest block seen. Root's request to look for a transaction is accepted exactly if the bridge has not accepted it and it is listed or fewer than 16 are.", "quantifier": "All states, authors, partitions, blocks, hashes and behaviours of the rest of the runtime", "why_tests_cant": "Tests show one accepted and a few refused votes; that nothing else refuses a vote and that no event of an approved partition is skipped is a statement about all states and partitions.", "anchors": ["pallets/eth-bridge/src/lib.rs:submit_ethereum_events", "pallets/eth-bridge/src/lib.rs:submit_latest_ethereum_block", "pallets/eth-bridge/src/lib.rs:process_ethereum_events_partition", "pallets/eth-bridge/src/lib.rs:set_admin_setting", "primitives/avn-common/src/event_discovery.rs:compute_start_block_from_finalised_block_number"]}
{"id": "C153", "title": "Requests to change the author set are honoured", "statement": "Root's request to add an author is accepted exactly if there are between 1 and 255 authors, the account is not one of them and has session keys, the Ethereum key is nobody's and decompresses, no change is under way and the bridge takes the request; it then hands one request naming the account and key to the bridge, makes the key the account's and opens one change. A request to remove an author is accepted exactly if more than the minimum are left, the account is one of them, no change is under way, a key is on file for it and decompresses and the bridge takes the request; the account keeps its place and key until Ethereum has answered. A rotation is accepted exactly if the old key is the account's and the new one nobody's, and changes only the owners of those two keys (the key on file for removals stays the old one).", "quantifier": "All states, accounts, keys, key orders and answers of the bridge", "why_tests_cant": "Tests show single refusals from fixed mock states; that nothing else refuses a request, in any state, is a statement about all of them.", "anchors": ["pallets/authors-manager/src/lib.rs:add_author", "pallets/authors-manager/src/lib.rs:remove_author", "pallets/authors-manager/src/lib.rs:rotate_author_ethereum_key"]}
{"id": "C154", "title": "Executing all due requests at once is refused only for stated reasons", "statement": "A signed request to execute a nominator's scheduled requests is accepted exactly when the account is a nominator with a scheduled request for every one of its nominations and one of the following holds: nothing is due yet; or its stake after all due requests is still at least the minimum total; or every nomination is revoked and due, and the nomination with the last collator in order is the only one or is by itself at least the minimum total. In particular one nomination without a request makes the whole call fail, and whether a nominator that revoked everything can use the call depends on the order of its collators' account ids.", "quantifier": "every reachable state of the staking ledger, every nominator with any number of nominations, every mixture of requests", "why_tests_cant": "the call is a loop whose every round changes what the next rounds check; tests run it on one or two nominations, all with requests", "anchors": ["pallets/parachain-staking/src/lib.rs:signed_execute_nomination_request", "pallets/parachain-staking/src/nomination_requests.rs:nomination_execute_scheduled_request"]}
{"id": "C155", "title": "A withdrawal spread over all nominations is refused only for stated reasons", "statement": "A signed request to withdraw an amount from a nominator's stake, spread over its nominations, is accepted exactly when the account is a nominator; its stake after this and all earlier requests is at least the minimum total; the average nomination that would remain (that stake times one over the number of nominations, in parts per billion) is at least the minimum nomination; none of the nominations asked to contribute has a pending request (they are asked in order, each for what it has above that average, until the amount is covered); and the nominations asked can give the amount and keep the minimum each.", "quantifier": "every reachable state of the staking ledger, every nominator with any number of nominations and pending requests, every amount", "why_tests_cant": "the call plans the shares in one loop and schedules them in another, whose rounds change what later rounds check; tests run it on a few fixed nominations", "anchors": ["pallets/parachain-staking/src/lib.rs:signed_schedule_nominator_unbond", "pallets/parachain-staking/src/lib.rs:identify_collators_to_withdraw_from", "pallets/parachain-staking/src/nomination_requests.rs:nomination_schedule_bond_decrease"]}
{"id": "C156", "title": "Nominating several collators at once is refused only for stated reasons", "statement": "A signed request to nominate several collators with one amount is accepted exactly when staking is enabled; the amount is free and is at least the minimum total stake times the number of collators; every collator is a candidate, is named once and not nominated yet, and has room for its share, which is at least the minimum nomination; the nominator has enough places left; and a nominator without nominations is no candidate itself and gives the first collator at least the minimum total. Shares are the amount times one over the number of collators in parts per billion, the rest going to one collator picked by the block number, so the last condition can make the same request succeed in one block and fail in the next.", "quantifier": "every reachable state of the staking ledger, every account, every list of collators, amount and block number", "why_tests_cant": "the call is a loop of nominations whose rounds change what later rounds check, and the shares depend on rounding and on the block number; tests use amounts that divide evenly", "anchors": ["pallets/parachain-staking/src/lib.rs:signed_nominate", "pallets/parachain-staking/src/lib.rs:split_and_nominate", "pallets/parachain-staking/src/lib.rs:collator_should_get_dust"]}
{"id": "C157", "title": "Terms for a known sender are taken and charged exactly", "statement": "An administrator's terms for a sender are accepted exactly when: permanent terms are a non-zero fixed fee or a percentage from 1 to 100; time-limited terms name a fee and a non-zero number of blocks; count-limited terms name a fee and the resulting last nonce is not zero. Accepted terms replace the sender's earlier ones and touch nobody else's; refused ones change nothing; removing a sender restores the ordinary fee at once. While accepted terms run, a transaction of the sender costs what they say plus the tip (but never more than was withdrawn); afterwards, the ordinary fee. Time- or count-limited fees are not checked at all: a fee of zero is refused as permanent but taken for any number of blocks, and makes all transactions of the sender free.", "quantifier": "all states, senders, terms, blocks, nonces, fees and tips", "why_tests_cant": "Tests try single configurations; acceptance, expiry and charge must fit together for every combination of terms, nonce and block.", "anchors": ["pallets/avn-transaction-payment/src/lib.rs:set_known_sender", "pallets/avn-transaction-payment/src/lib.rs:remove_known_sender", "pallets/avn-transaction-payment/src/fee_adjustment_config.rs:is_valid"]}
