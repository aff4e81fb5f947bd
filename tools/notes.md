# working notes (findings while reading)
- F1 avn::signature_is_valid (pallets/avn/src/lib.rs ~434): checks is_validator(account) but verifies with caller supplied key -> forged votes. C23 false.
- F2 eth-bridge add_confirmation: dedupe on signature bytes only, not on author -> one validator with 2 distinct ECDSA sigs counted twice. C21 false in part.
- F3 n=1 validator: supermajority 0 -> add_confirmation returns early, lower proof never completes.
- F4 process_ethereum_event (eth-bridge lib ~1010) calls handlers w/o storage layer: process_lower_reverted removes ready lower before failing; growth lift credits treasury before on_growth_lifted error. C10 false.
- F5 regenerate_lower_proof moves ready->pending; a claim event arriving then is rejected and event is burned (processed) -> lower becomes ready again after claim. C05/C06 relevant
- F6 advance_primary: len as u8: 256 validators => div by zero.
- complete_lower_proof_request: process_lower_proof_result error (too long) after take() -> lower lost from all tables (if data>10000 bytes; conf limit 100*65+... < 10000 so unreachable)
- release profile: no overflow-checks => u32/u64 += wraps.
- Runtime: BridgeInterfaceNotification=(Summary,TokenManager,ParachainStaking,ValidatorsManager); eth-events ProcessedEventHandler=(TokenManager,NftManager); EthereumEventsMigration=()
- F7 primitives/avn-common/src/event_types.rs NftCancelListingData::parse_bytes: OP_ID topic length unchecked, slices [0..24] -> panics on short topic. NftTransferTo/NftMint/growth period ignore high bytes (truncation) -> parse not injective.
- verify_signature accepts payload wrapped in <Bytes>..</Bytes> or raw (sr25519) or ecdsa eth.  Proof{signer,relayer,signature}
- concat_lower_data spans: token 0..20, pad 20..36 zeros, amount BE 36..52, recip 52..72, lower_id BE 72..76, t2 sender 76..108, ts BE 108..116. LowerData::try_from reads back AMOUNT_SPAN only.
- ocw_lock::record_block_run: run once per block; stored last_run monotone.
- create_function_confirmation_hash: EIP712 with param counts (publishRoot 3, triggerGrowth 5, add/removeAuthor 4 incl expiry+txid)
- event_types parse_bytes lines: see primitives/avn-common/src/event_types.rs
- E1..E3 ethereum-events; S1..S7 staking; V1..V5 validators; N1 royalties u32 sum; see DESIGN findings.
- A1 avn-anchor signed_register_chain_handler has no nonce: replayable after handler moved to a new account.
- P1 avn-transaction-payment: TimeBased/TransactionBased skip inner fee validation (percentage>100 or zero fixed fee accepted).
- O1 offence handler: reported while slashing disabled => never slashed until re-registration.
- M1 generate_merkle_path returns Ok for a leaf not in the tree; M2 leaf/node ambiguity: 64-byte data of inner node verifies as leaf.
- X1 client identify_events: one event per tx (second Lifted in same tx dropped); one unparsable log makes whole range fail (Err).
- W1 Summary root votes / end votes / challenges sign no instance id: with two Summary instances (test runtime: Summary + AnchorSummary) signatures are interchangeable (C87).
- W2 EIP-712 domain ignores the instance salt; bytes32 param of wrong length panics in create_function_confirmation_hash (C85).
- U1 authors-manager rotate_author_ethereum_key does not update AccountIdToEthereumKeys => later removal names the old key. U2 rotated key of a failed registration stays forever. U3 new-session clean-up drops the key of a pending removal before Ethereum answers. U4 AccountIdToEthereumKeys never cleared on removal; AuthorActions entries never removed after success.
- W-check1 anonymous log (no topics) before the event panics the ethereum-events worker (C91). W-check2 confirmations subtraction wraps when the receipt's block is newer than the block number fetched first (C91). W-check3 validator that finds InsufficientConfirmations notes the event as validated (C92). W-check4 a lagging node (empty answer) says Invalid and challenges honest Ok. W-check5 head-of-line blocking by an event with is_valid()=false data (e.g. NFT transfer to zero key) or crash (C93). Newest-first processing.
- SW1 summary votes name only the root id, not the hash: honest votes cast on one fork validate a false root on another (C94). SW2 record_summary names only the last block + ingress: after schedule changes an honest proposal can be taken for another range. SW3 an expired vote reports the honest proposer and approvers. SW4 with one author, a slot past its grace period is stuck forever (C95).

- W-check6 receipt without block number counts as block 0, i.e. final (C91).
- D1 additional (governance-queued) transactions in blocks after the active range split honest votes (C98): each node includes what its Ethereum node has seen so far; votes cannot be changed, so discovery halts until `restartDiscovery`. D2 (note only) votes never re-evaluated when the author set shrinks: if all remaining authors have voted already, nothing triggers processing.
- L1 `LiftedToPredictionMarket` is in the core filter but has no handler in the production runtime (token-manager lib.rs:1119-1129 ignores it; TokenInterface::process_lift has no caller): accepted, recorded, never credited (C99_prediction_market_lift_is_not_credited).
- B6 eth-bridge lib.rs:439-441: early return when enough confirmations; a lower proof that comes to suffice by a shrinking author set (4 authors need 2, one confirmation, shrink to 2 needing 1) is stuck (C101).
- N1 external-service lib.rs:404: H256::from_slice(&msg_bytes) before validate_authorisation_token: unauthenticated panic on a sign body of a length other than 32.
- N2 web3_utils.rs:76-86: transaction_count at latest block; after a restart the nonce of a pending transaction is reused.
- N3 cached nonce is only refreshed on "nonce too low": dropped transaction / swapped key leaves all later ones above the count until restart.
- N4 X-Auth tokens contain nothing single-use: replayable (local attacker).
- G1 eth-bridge migration.rs:202-248 v3::ActiveRequestDataV3 uses the new Request type (116-byte params). G2 validators-manager migration only at version 1. G3 msg_hash/confirmations of an active lower kept across v5.
- D3 additional transactions after the range end: honest authors reported by process_ethereum_events_partition (C108). O2 pallet_offences hands all concurrent offenders to the handler: re-registered account punished again in the same session (C107). B7 corroborate at head when the hash is unset: reorg makes honest authors contradict.

- V7 registrant nominates/spends/purges keys before the result: success refused, bridge blocked (C112, C113). R1 purge_keys empties authors (C110). R2 removed validator without Ethereum key still author <=3 sessions, R3 no eligible candidate: unbonded old collators kept (C111).
- D7/D8/D9 connections of the discovery task: dead address hides later ones, no failover, one bridge's error ends the round (C138-C140).
- D4/D5/D6 two bridge instances in runtime/test: see C114.
- Q1-Q3 pool tags without author / equal across Summary instances / with signature (C115). Q4 no executed-already check in validate_unsigned (C116). Q5 add_eth_tx_hash replay across attempts; setInstance resets attempts (C117). Q6 51st event challenge (C117).

- Q7 growth lift mints max(rest, sum of rounded shares) >= lifted; a rejected repeat still credits treasury (C118).
- Q8 XCM: relay token = native currency, relay = reserve: relay reserve transfer mints AVT (C123).
- O3-O5 second offence per session unannounced (C127); old challenges accuse (C126); re-registered validator announced for old offence (C125).

Authority. GV1 the general_admin track (decision deposit 500 AVT) leads nowhere: no call of the runtime accepts its origin, so an approved referendum on it has no effect (C130). GV2 only root can whitelist calls (`WhitelistOrigin = EnsureRoot`), so the whitelisted_caller track is a faster lane only for what sudo or a root referendum already approved (C130). GV3 the filter that keeps collators from joining and leaving by themselves does not hold against `sudo_as` and `dispatch_as` (C129): a candidate made that way is unknown to the validators manager.

- V8 rotate_validator_ethereum_key does not check the new key decompresses (removal then refused with InvalidPublicKey until rotated again) and does not tell Ethereum (C147).
- S17 (C154): signed_execute_nomination_request executes the due requests in order of collator id; after schedule_leave_nominators with nominations 60 and 40 under a minimum total of 50 it is refused (40 would remain) when the 40 sorts last, and works when the 60 does. execute_leave_nominators works in both cases. It also fails with PendingNominationRequestDNE as soon as one nomination has no request.
- S18 (C156): split_and_nominate checks amount >= minTotal * k, but each share is Perbill(1/k) * amount, rounded down; a new nominator that gives exactly the minimum per collator is accepted only in blocks where the dust goes to the first collator.
