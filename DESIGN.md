# Formal model of avn-parachain in Lean 4 — design

Source of truth: `/repo` at the pinned commit (Rust, Substrate/FRAME). The model is a hand translation
into total Lean functions; every definition cites the file and lines it models. Property statements live in
`Verif/Props/*.lean`, apart from the model (`Verif/Model/*.lean`) and the helper lemmas (`Verif/Lemmas/*.lean`).

## Conventions
* **State** of a pallet = a structure with one field per storage item that matters. `StorageMap` with
  `ValueQuery` is a total function, with `OptionQuery` a function into `Option`. Where a finite sum over
  accounts is needed the theorem ranges over every finite account set covering the non-zero entries.
* **Extrinsics** are functions `State → args → Except Err State` (FRAME wraps each call in a storage layer, so an
  error rolls back: `Except.error` carries no state). Code that is *not* run in a storage layer
  (bridge callbacks, event handlers, hooks) returns the mutated state together with its result.
* **Unbounded histories**: `inductive Step`/lists of calls; properties are invariants proved by induction over
  all call lists, with no bound on their length.
* **Integers**: balances are `Nat` with the code's explicit `checked_*` / `saturating_*` behaviour; release builds
  have no overflow checks, so plain `+= 1` on `u32`/`u64` is modelled as wrap-around where ids matter.
* **Cryptography** is abstract: signature verification is an arbitrary predicate `verify key sig payload`, hashes are
  arbitrary functions; collision resistance is never assumed, only exhibited in the conclusion.
* **Environment** (other pallets, Ethereum, off-chain workers, block number, validator set) enters as arbitrary
  arguments/oracles, so theorems quantify over it.

## Trusted base
* Lean 4.33.0 kernel. Axioms: at most `propext`, `Classical.choice`, `Quot.sound` (no others are added;
  no compiled-code tactics are used). `#print axioms` of each claimed theorem is checked by `vcheck`.
* The hand translation Rust → Lean (not machine checked); FRAME semantics (storage, transactional calls, origin
  checks, weights, `BoundedVec`), SCALE codec layout, `Perbill` rounding as documented in `Verif/Model/Basic.lean`.
* Not modelled: weights/fees of blocks, networking, consensus, XCM/cumulus, RPC, keystore, benchmarking, mocks,
  genesis builders except where an invariant needs an initial state, storage migrations.

## Per property plan
(see MANIFEST.json for the theorem names; "false" = the code violates the English claim; then the negation is proved with
a concrete witness and the true part is proved as `_partial`)

| id | model | proof |
|----|-------|-------|
| C01 | token-manager balances per (token, account), lift/transfer/lower/revert calls | supply equation per call, then induction over call lists |
| C02 | token-manager nonces, signed_transfer / schedule_signed_lower with abstract `verify` | nonce strictly increases; a payload accepted twice would need two nonces; history induction |
| C03 | same | case analysis over every call: decrease ⇒ origin = account ∧ signature |
| C04 | SCALE encodings of payload tuples | round-trip / injectivity by prefix lemmas |
| C05, C06, C07, C11 | lower lifecycle: LowerNonce, pending, ready, failed/claimed, lowering switch | invariant over all histories; false parts with witnesses (F5) |
| C08 | concat_lower_data byte layout | decode ∘ encode = id |
| C09 | growth lift arithmetic | exact split, Perbill floor/nearest arithmetic |
| C10 | event handlers without storage layer | false (F4): witness; `_partial` for lift, predicted handlers |
| C12–C14, C16 | eth-bridge event partitions, votes, processed set, range advance | invariants / refinement; partition factory by list induction |
| C15 | initial range votes | decision-logic theorem over all vote maps |
| C17–C22 | eth-bridge request queue, tx ids, confirmations, corroborations, notifications | invariants over call histories; C21 false in part (F2) |
| C23 | avn signature check | false (F1) witness; partial: with registered key |
| C24, C25 | quorum arithmetic, advance_primary | arithmetic for all n; rotation by modular arithmetic; false at 256 (F6) |
| C26 | voting session add/dup checks | invariant over vote sequences |
| C27 | event log parsers | encode/parse round trip for every field value; false for some (F7) |
| C28 | ocw lock | invariant |
| C29–C35 | summary pallet state machine | invariants over histories; C29 under fixed period |
| C36–C39 | ethereum-events pallet state machine | invariants; C38 false (E1), C39 false in part (E2) |
| C40 | OrderedSet | sortedness invariant, membership spec |
| C41–C43 | candidate metadata + top/bottom lists | invariant over operation lists; C43 false (S1) |
| C44–C46 | nominator state, scheduled requests | invariants; C46 false (S2) |
| C47 | split arithmetic | exact sum |
| C48 | Perbill payouts | false (S3) witness; partial bound |
| C49–C52 | Model/StakingEra on top of Model/Staking: pot, LockedEraPayout, growth periods, selection, eras, block hooks in runtime order | specification of one block (BlockSpec), invariants over all histories of blocks and calls; C50 false in part (S16) |
| C53–C55 | validators-manager, authors-manager | invariants; C54 false for authors-manager (V2) |
| C56–C60 | nft-manager | invariants |
| C61, C62 | avn-proxy | decision logic + nonce invariant |
| C63, C64 | avn-anchor | invariants; C64 false for registration (A1) |
| C65–C67 | avn-transaction-payment | arithmetic; C67 false (P1) |
| C68 | offence handler | invariant |
| C69, C70 | merkle tree | induction over levels for every hash function; C70 false (M2) |
| C71 | client identify_events (Model/EventsClient) | false (X1, X2) witnesses; partial: what is reported is in the logs, exactly and in order |
| C72 | every signed call of token-manager, NFT, anchor, proxy payments with the shared signature check (Model/Common, ProxyCalls) | verification ⇒ signature over the exact payload; payload injective ⇒ one operation |
| C73 | nft-manager (Model/Nft) | invariant over histories: provenance fields never change after mint |
| C74 | client partition vote (Model/EventsClient + EthBridge partition factory) | two honest nodes with the same chain compute equal partitions |
| C75 | staking block hooks (Model/StakingEra): on_initialize, session hook, author note | every partial operation (division, subtraction, expect) shown unreachable in every reachable state |
| C76, C77 | era rewards, paid one collator per block | books-keeping invariant (what was set aside = paid + remaining), turn argument over the blocks of an era |
| C78 | eth-bridge partition application | refinement: the fold over the approved partition = the sequence of handler calls, with one truthful record each |
| C79, C80 | eth-bridge set-up, settlement | view lemma per call; history induction; settled records are write-once |
| C81 | NFT id derivation | injectivity of the derivation inputs; refusal only if the id really exists |
| C82 | growth publication | what is published for a period = the sums accumulated from the eras of that period |
| C83 | summary offences | effect trace of each call; the log contains exactly the offences that are due |
| C84 | staking ledger and locks | invariant: locks ≤ free balance; equality of locks with stakes (C44) gives coverage |
| C85 | EIP-712 hashes of requests and lowers (hash function arbitrary) | encodings split field by field; equal hashes give equal strings or a collision among the concrete strings hashed; decimal print/parse round trip; combined with C79 in the bridge pallet |
| C86 | ABI encoding of calldata, lower proof, answers of Ethereum | independent ABI reader; head/tail layout by induction over the arguments; hex and decimal round trips |
| C87 | all payloads signed by an AvN key | field by field splitting of SCALE encodings, contexts compared pairwise; the vote, end-of-vote and challenge payloads of Summary carry no instance: counterexample |
| C88 | `work` (the off-chain worker of one author, arbitrary node answers) over the BridgeTx model | case analysis for what a worker submits; liveness by an invariant of the request in progress (`Live`/`LiveLower`), preserved by every tolerated step, plus counting of distinct signers and corroborators over arbitrary schedules |
| C89 | `Model/Authors.lean`: add/remove/rotate/process_result/new session over key map in iteration order | invariant with the change in flight (`Inv`), step view, history induction; `KeyInv` for calm histories; kernel-evaluated counterexamples for the rest |
| C90 | `Model/Deposits.lean`: the bridge-events, ethereum-events and token-manager models run side by side over one processed map and one token manager, wired as in the runtime | system invariant (`Inv`: synchronisation, faithful ghost trace, distinct hashes, all recorded) by induction over interleaved histories; composes C01, C12, C13, C36, C78 |
| C91 | `Model/EventCheck.lean`: JSON receipts, the log search, contract and topic parsing, `compute_result`, the service's answer codec and confirmation count | relational search semantics (`Search`) shown equal to the code on every JSON layout of a receipt; case analysis into iff theorems; counterexamples for the crash and the wrapping subtraction |
| C92 | the workers' steps over the `EthereumEvents` model | iff for one worker run; induction over the challenges; invariant of C37 for uniqueness; counterexample for young events |
| C93 | as C92, plus honest histories (`HonestRun`: worker transactions computed from any state seen so far) | progress by computation of the step; history induction for persistence; invariant `Held` for the blocking counterexample |
| C94 | `Model/SummaryWorker.lean`: the summary off-chain worker (all five duties), the node service that computes root hashes, honest histories (`HonestHistory`) | a quorum contains an honest approver whose worker computed the same hash; root id ↦ hash is constant along a history; idle/ingress lemmas tie a proposal to its range; three counterexamples |
| C95 | as C94 | invariant `Open` (a pending root has a session without outcome, its entry and a live period); computation of the worker and of the step it submits |
| C96 | `Model/DiscoveryWorker.lean`: one round of the event discovery task with its queries at different blocks; honest histories (`HonestHistory`, `FewDishonest`), faithful nodes (`Faithful`) | a quorum contains an honest voter, whose vote lists only final bridge logs; what the pallet hands over comes from an approved partition |
| C97 | as C96 | two-part invariant along the history: everything before the active range, and every event in the partitions already passed of the active one, is recorded; votes of faithful nodes agree on the sorted events up to the range end; filter and additional transactions seen by stale queries are those of the range |
| C98 | as C96 | votes of faithful nodes are `thePartition` (order-independent); the active partition exists because an honest vote said the one before was not last; counting votes by induction on the voters; counterexample with late additional transactions |
| C99 | `Model/EndToEnd` joins `Model/DiscoveryWorker` and `Model/Deposits`: the runtime history is projected to the history the bridge pallet sees (`bridgeHistory`), and the projection is proved to lead to the same bridge state | C96/C97 applied to the projection; every `handled` report has its trace entry and vice versa; trace entries tell the outcome of their moment; supply by injecting the delivered events into the logs |
| C100 | `Model/LowerFlow`: `Model/TokenManager` and `Model/EthBridgeTx` wired as in the runtime: the token manager is the `world` of the bridge, requests are made by the token call itself, results delivered inside the bridge call | joint invariant (outstanding lower requests = pending lowers, once each, same parameters) over histories; backwards induction to the call that took the tokens; confirmations of the active request traced to the calls that made them |
| C101 | on `Model/LowerFlow`: the active lower proof and the confirmations still needed | induction over the continuation with the set of signatures still to come; what a confirmation does in each case; delivery keeps a ready lower ready. **Full claim false** (finding B6): `C101_stuck_forever` for all continuations, `C101_shrunk_author_set_stuck` on a reachable state |
| C102 | model of the external service (requests, keystore, X-Auth tokens, retry on low nonce), Ethereum answers as inputs, ghost log of signatures and submissions | induction over histories; every log entry traced to an authorised request; exhaustive description of a send request |
| C103 | same model, handler outcome ok / error / panic | case analysis; counterexample to the full claim: panic before authentication (N1) |
| C104 | same model, accepted nonces read off the ghost log | invariant: the cached nonce is above every accepted one; counterexamples: restart (N2), dropped transaction (N3) |
| C105 | `Model/Migration`: storage as bytes, SCALE codecs of the stored types, the migrations reading them with the old types | codecs read back what they encode (all values within the limits); a stored lower too short for the new type is not read as one; counterexample G1 |
| C106 | same model, maps as association lists of bytes | each entry decodes and is re-encoded; fold over the keys |
| C107 | `Model/BridgeOffence`: the bridge pallet (`EthBridgeTx`, `EthBridgeEvents`) with the reports it hands to the offence handler at each step, and the offences pallet feeding `Model/Offence` | the reporting step projects onto the step already modelled; the reports of a step are characterised in both directions; induction over histories for punishment |
| C108 | same model; truth is a hypothesis (an oracle for each transaction / event range) | honest votes agree with the truth, a contradiction needs a false majority; for events only when no additional transactions split the honest votes |
| C109 | `Model/Membership`: validators-manager, staking, sessions and the author list as one transition system | invariant relating validator list, candidate records and recorded removals, preserved by every step; induction over histories |
| C110 | same model | invariant on keys, queue and authors; characterisation of every step as “no rotation” or “one rotation”; the last sentence refuted by a concrete history (R1) |
| C111 | same model | counting sessions over arbitrary continuations; R2 and R3 shown by concrete histories |
| C112 | same model | deposits traced back to the request over histories; `join_candidates` characterised exactly; the last sentence refuted (V7) |
| C113 | `Model/EthBridgeTx` with `Model/Membership` as the rest of the runtime | the deciding corroboration computed exactly when the pallet accepts; when it refuses, an invariant over all honest histories shows the request never leaves (V7) |
| C114 | `Model/TwoBridges`: `Model/EthBridgeEvents` as the main instance plus the second instance's record and the migration hook | the effect of one batch in closed form (fold over distinct keys); the growth relation of C12 extended to the pair; induction over histories and blocks; both false parts by concrete states |
| C115 | `Model/Pool`: tags byte by byte, priorities, Substrate's pool as "equal tag, not higher priority: refused" | unique decoding of every tag (prefixes, compact lengths, fixed-width fields), then induction over arrivals and departures; false parts by universally quantified counterexamples |
| C116 | `Model/Pool` (`admit*`), `Model/Summary`, `Model/EthereumEvents` | invariants kept by every step ("has voted", "has ended", slot number, event no longer pending) imply refusal; false parts by quantified counterexamples |
| C117 | `Model/Summary`, `Model/EthereumEvents`, `Model/EthBridgeTx`, `Model/EthBridgeEvents` | invariants kept by every step: the counter is past the root, the id is in no waiting request and its attempt only grows, discovery is past the partition or the author has voted; counterexamples as histories |
| C118–C120 | `Model/Ledger`: token manager, staking, plain transfers and fees on one native balance map, wired as in the runtime | every step of every pallet is classified as nothing / move / credit / burn on the shared map with the payer keeping its frozen part; from that supply, coverage and reachability of the staking state by induction over histories; C118 false for growth lifts |
| C121–C123 | `Model/Xcm`: the XCM configuration on `Model/Ledger`, the executor as lists of instructions that succeed or change nothing | invariant of the origin register (inside the sender), one inversion lemma for executed instructions, effects on balances composed by induction over programs and histories; C123 false (Q8) |
| C124 | `Model/Price`: weight and length fees, prediction and correction, composed with `Model/Fees` | exact evaluation of the saturating arithmetic on realistic ranges, monotonicity of every operation without bounds; the charge by C65 |
| C125–C127 | `Model/OffenceBook`: the reports of summary, Ethereum events, bridge and im-online through `pallet_offences` to the handler | invariant over histories (book of this session ⊆ named this session; on record or registered); inversion of `process_event`; C83 transported to the chain |
| C128–C131 | `Model/Authority`: origins, call filter, origin checks of all calls, tracks, and the calls that dispatch calls | structural induction over nested calls; invariants over histories (nothing pending under root but lowers asked for; where calls and origins on the agenda come from); a relation kept by all calls an origin may make |
| C132 | `Model/LeafQuery`: the search for a transaction by position, on `Model/SummaryWorker` and `Model/Merkle` | the loop in closed form by induction; paths by C69 |
| C133–C135 | `Model/Governed`: the dispatcher of `Model/Authority` together with one pallet at a time (`Membership`, `TokenManager`, `EthBridgeEvents`, `EthBridgeTx`, `Summary`, `EthereumEvents`, `Anchor`, `Fees`, `Offence`); a call of root to the pallet happens only if the dispatcher carries it out | C128 at every step, then an invariant of the pallet that every step but the privileged calls keeps; for the request in work: it changes only by the call that sets it aside (root) or by the corroborations, the sender's or the finalising call that decides it |
| C136–C137 | the same combination; C136: the five settings of staking (`Lemmas/Governed3`: every staking function, block hook, session change and bridge answer keeps them); C137: token manager under the dispatcher, for an account that authorises nothing in any step made (`Along … (Untouched t)`): balances never fall | invariants over histories of the combined system, from C128 |
| C138–C141 | `Model/Connections`: the whole discovery task of a node: finding the author, connections per network made over attempts, all bridges of a round, failing queries; the log of questions and calls | invariants over the log and the connections (known, kept, tied); induction on addresses, attempts, bridges, rounds; universal counterexamples for C139, C140 |
| C142 | on `Model/Nft`: from every reachable state the valid request of an owner, a creator or Ethereum is accepted and has its effect | reachable-state invariants (C58, C81) give the premises; unfolding of each call under its preconditions |
| C143 | on `Model/TokenManager`: acceptance of transfers, lowers (request, due, answer, claim, regenerate), lifts and refunds as an equivalence with a separate specification (`Payable`, `Scheduled`, `Paid`) | case analysis of every branch; the agenda name is free by C05 |
| C144 | on `Model/Anchor`: acceptance of registration, handover and checkpoint (direct and signed) as an equivalence with a separate specification, and the effect | branch analysis; handlers have chain data, used origins are those of stored checkpoints (invariants of C63) |
| C145 | on `Model/Proxy`: acceptance of a relayed call, payment of its fee and the effect of the inner call as equations | branch analysis; `Payable`/`Paid` of C143 |
| C146 | on `Model/Staking`: for every call except `signed_nominate` (C156), `signed_execute_nomination_request` (C154) and `signed_schedule_nominator_unbond` (C155), the exact condition of success in a reachable state | the invariants behind C41–C46 exclude every internal error; the rest is branch analysis |
| C147 | `Model/EthKey.lean`: `libsecp256k1`'s parsing of a compressed key, after its algorithm, over numbers below the field prime; `compress_eth_public_key`; composed with `Model/Eip712.lean` and `Model/Validators.lean` | the field prime is proved prime with a Pratt certificate (`Lemmas/EthKeyPrime.lean`); roots by Fermat, no point with `y = 0` because minus seven is not a cube; injectivity composed with C85; the history theorem by induction |
| C148 | `Model/Validators.lean` | each call characterised exactly as accepted or refused, with its resulting state; the removal uses the key invariant of C54 over histories |
| C149 | `Model/EthereumEvents.lean` | each call characterised exactly as accepted or refused (pool check and call together); uniqueness of queued ids over histories (C37) for challenges and processing; delivery computed |
| C150 | `Model/Summary.lean` | each call characterised exactly as accepted or refused; the effect of a recorded root computed; a deciding vote refers to the end of the vote, whose effects are C29 to C33 |
| C151 | `Model/EthBridgeTx.lean` | acceptance of each call characterised exactly, with the resulting state; a decided corroboration and a removal refer to the rest of the log (the queue moves on as in C17) |
| C152 | `Model/EthBridgeEvents.lean` | acceptance characterised exactly; approved events by induction over the partition; which block is selected is C15 |
| C153 | `Model/Authors.lean` | each call characterised exactly as accepted or refused, with its resulting state |
| C154 | on `Model/Staking`: `executeDue`, the loop of `signed_execute_nomination_request`, in every reachable state | induction over the nominations still to be seen, with the invariants behind C41–C46 in every intermediate state; `C154_departure_depends_on_order` shows the dependence on the order of collators |
| C155 | on `Model/Staking`: `scheduleUnbondAll` with both of its loops, in every reachable state | the planned amounts are related to a separate specification of which nominations contribute, then induction over the scheduling loop |
| C156 | on `Model/Staking`: `splitAndNominate`, in every reachable state | induction over the targets with C146 (single nomination) in every intermediate reachable state; `C156_depends_on_block` shows the dependence on the block number |
| C157 | Model/Fees, Props/FeesLive | acceptance iff, by cases of fee and adjustment; charge from acceptance and expiry |

## Where each model lives, and what it leaves out
| model file | code | left out or simplified (also stated at each definition) |
|---|---|---|
| Model/Basic, Encoding, Common | SCALE primitives, Perbill, shared signature check | codecs other than those of signed payloads; crypto abstract |
| Model/Avn | pallets/avn (validators, quorum, primary rotation, ocw lock, voting sessions) | off-chain HTTP, keystore; validator set changes are an arbitrary operation |
| Model/Lower, TokenManager | pallets/token-manager | scheduler pallet reduced to "a scheduled call may run any time at or after its block, once"; Balances reduced to free/locked arithmetic |
| Model/EventTypes, EventParsing | primitives/avn-common/src/event_types.rs | – |
| Model/EthBridgeEvents, EthBridgeTx | pallets/eth-bridge | Ethereum itself: arbitrary votes; EIP-712 hash abstract |
| Model/Eip712 | primitives/avn-common/src/eth/mod.rs (signing hashes, request parsing) | Keccak and `from_utf8_lossy` arbitrary functions; the code `sol!`/`eip712_domain!` generate is modelled from EIP-712 |
| Model/Calldata | pallets/eth-bridge/src/eth.rs (calldata, answers, corroborate) | ABI encoder of the ethabi crate modelled for the six types used; HTTP transport and SCALE wrapping of queries left out; Keccak and UTF-8 validity arbitrary |
| Model/AuthorPayloads | payloads signed with AvN keys in eth-bridge, ethereum-events, summary, avn | encodings of an events partition and of a check result opaque |
| Model/BridgeWorker | `process_active_request`, `process_active_tx_request` of pallets/eth-bridge | the OCW lock, HTTP and keystore are the arbitrary `Service` |
| Model/Authors | pallets/authors-manager/src/lib.rs (not in the production runtime, but in the workspace) | whole pallet except weights, events, benchmarks; session keys, key decompression and bridge acceptance are inputs |
| Model/Deposits | runtime/avn/src/configs/mod.rs (wiring of the three pallets) | other handlers of the tuples (Summary, staking, validators, NFT outcome is an input); `TokenInterface` callers (not in the production runtime) |
| Model/EventCheck | pallets/ethereum-events/src/event_parser.rs, lib.rs off-chain worker, client/external-service receipt answer | JSON text reader (parameter), transport, signing, `ocw_lock`, non-ASCII case folding |
| Model/SummaryWorker | off-chain worker of pallets/summary, client/extrinsic-utils root computation, `/roothash` endpoint | HTTP, signing, OCW locks (arbitrary), URL number printing |
| Model/DiscoveryWorker | client/external-service event discovery task (one round), runtime queries of apis.rs | network, keystore, transaction pool, sleeping; one bridge contract |
| Model/EndToEnd | reading of the voted event data by the token manager (`token-manager/src/lib.rs:1119-1129`), the wiring of `runtime/avn/src/configs/mod.rs:393-519` seen from the bridge pallet | the SCALE codec of the event data (any pair of functions such that the runtime reads what the node wrote); `env.eventKnown` (the record made just before the handler runs) is a hypothesis of the success clause |
| Model/LowerFlow | wiring of `runtime/avn/src/configs/mod.rs:308-519`; the request as last action of `settle_lower`/`regenerate_proof`; delivery of lower proof results | the parameter bytes travel as one number (their big-endian value); proof bytes only by length |
| Model/Service | `client/external-service/src/{lib,keystore_utils,web3_utils}.rs`: sign_hashed_data, send, view, query, keystore lookup, token check, cached nonce | HTTP transport, the web3 library, sr25519/secp256k1 (parameters), `roothash`/`latest_finalised_block` (in SummaryWorker), u64 overflow of the nonce, waiting time inside a request (the lock makes sends atomic) |
| Model/Migration | `pallets/{eth-bridge,token-manager,validators-manager}/src/migration.rs`, as composed in `runtime/avn/src/lib.rs` | weights, try-runtime checks, the migrations of pallets not in the runtime list |
| Model/BridgeOffence | `pallets/eth-bridge/src/offence.rs`, `tx.rs:24-46`, `lib.rs:1014-1023`, and the report handling of the (dependency) offences pallet | slash fractions, use of reporters, offender identification (total in the production runtime); the offences pallet is trusted as read from its documentation |
| Model/Membership | `pallets/validators-manager/src/lib.rs`, `pallets/parachain-staking/src/{lib,session_handler}.rs`, `pallets/avn/src/lib.rs` and the session pallet (a dependency), as wired in `runtime/avn` | source of `pallet_session` (followed from its documentation); disabled validators (none are); calls the administrator dispatches around `RestrictedEndpointFilter` |
| Model/TwoBridges | `pallets/eth-bridge/src/lib.rs:792-821,1319-1352,1472-1527` as set up in `runtime/test` | votes of the second instance (any event may be approved); weights are one Boolean |
| Model/Pool | `validate_unsigned` of eth-bridge, ethereum-events, summary, avn/vote (tag, priority, state checks) | Substrate's pool (given as described in the file); `requires` tags and longevity (nothing uses requires) |
| Model/Ledger | `runtime/avn/src/configs/mod.rs:169-172,423-424,455-457,616-636`; token manager, staking and fee models on one balance map; `transfer_*` of pallet-balances | reserves, holds and deposits, vesting, locks of other pallets; how much of a fee is refunded is any part of it |
| Model/Xcm | `runtime/avn/src/configs/xcm_config.rs` | xcm-executor, xcm-builder and pallet-xcm themselves (described from their documentation, not in /repo); barrier and weights, responses, locks; non-native holdings |
| `Model/Price` | `runtime/common/src/lib.rs`, `runtime/common/src/weights/extrinsic_weights.rs`, `runtime/avn/src/configs/mod.rs:69-97, 169-176` | updates of the congestion multiplier (arbitrary here), proof size |
| `Model/OffenceBook` | `pallets/{summary,ethereum-events,eth-bridge}/src/offence.rs`, `runtime/avn/src/configs/mod.rs:317-328` | internals of `pallet_offences` and `pallet_im_online` (dependencies) |
| `Model/Authority` | runtime/avn lib.rs filter and pallet list, governance/*, configs/mod.rs origins, `ensure_*` of every call | library pallets (sudo, utility, scheduler, whitelist, referenda) as documented, not from source; weights, deposits, voting, preimages |
| `Model/LeafQuery` | extrinsic_utils.rs:18-58, 62-87, 150-170 | the crate offers the search and the path; no function of the repository combines them |
| `Model/Governed` | the origin checks of the pallets (cited there), tied to `Model/Authority` | a step of a pallet is matched with a carried out call of the same name, not with its arguments |
| `Model/Connections` | client/external-service discovery task: `initialise_web3`, `get_web3_connection_for_instance`, `find_current_node_author`, the loops | mutexes, waiting, the runtime API version test; refines `Model/DiscoveryWorker` |
| `Model/EthKey` | `primitives/avn-common/src/eth_key_actions.rs` | `libsecp256k1` field limbs and its error kinds |
| Model/Summary | pallets/summary | root hash computed off chain: arbitrary; one instance at a time |
| Model/EthereumEvents | pallets/ethereum-events | off-chain checks: arbitrary results |
| Model/Merkle | merkle root / path computation of the node and RPC | hash abstract |
| Model/Offence | pallets/avn-offence-handler | – |
| Model/Proxy, ProxyCalls | pallets/avn-proxy | dispatch of the inner call: arbitrary function of the world |
| Model/Anchor, Fees, Nft | pallets/avn-anchor, avn-transaction-payment, nft-manager | – |
| Model/EventsClient | node/avn-service ethereum events handler | RPC transport; logs are given per block |
| Model/Validators | pallets/validators-manager (and the key maps of authors-manager) | session keys, staking side effects as oracles |
| Model/StakingSet, StakingCandidate, Staking, StakingEra | pallets/parachain-staking | genesis, migrations, benchmarking; the currency is free balance + two locks |

## Testing the theorems against wrong programs
`tools/mutate.py` applies one edit to a model definition in a scratch copy, rebuilds everything and records which proofs fail.
`seeded/LOG.jsonl` has one line per attempt (more than 1100). Edits that no theorem noticed led to new or stronger theorems (named in
`theorems_tightened`); they were then run again and are now detected. Because a failing lemma keeps the modules above it from being built,
the log also gives `claims_depending`: the claimed theorems whose proofs use a failed lemma.

## Findings (candidate defects, each stated as a theorem where the model covers it)
F1 avn signature check uses caller-supplied key; F2 lower confirmations deduped by signature bytes; F3 supermajority(1)=0;
F4 incoming event handlers are not transactional; F5 regenerate_lower_proof un-readies a lower so a claim is rejected;
F6 `len as u8` with 256 validators; F7 NFT cancel-listing topic length unchecked; E1 full challenge queue drops an event;
E2 stale challenges survive a successful challenge; E3 checked_at_block is caller-chosen; S1 decrease in bottom keeps the cached total;
S2 request list full ⇒ Ok without a request; S3 Perbill rounding overshoots; V2 authors-manager key maps diverge;
A1 anchor registration replay; P1 inner fee type unchecked; O1 no slash after being reported with slashing off;
M1/M2 merkle path for non-leaf and inner nodes; X1 client drops second event per tx, X2 one unparsable log blocks a range.
B1 ConfirmationsLimit 100 is below the supermajority for ≥ 152 authors; B2 changing the bridge instance keeps an active lower proof's old message hash;
B3 requests with 4–5 parameters are accepted but can never be sent; B4 restarting event discovery clears at most 100 vote entries;
S8 zero-amount decrease requests; S9 a scheduled revoke can be refused when due; S10 spreading a nomination over no target succeeds and bonds nothing;
S11 a failed growth publication is skipped once a later period succeeds; S12 collators go unpaid when the paying era has fewer blocks than scorers;
S13 a failed growth transaction is never retried; S14 with zero minimum and a revoking nominator rewards can be paid twice over; S15 the force flag
survives an era that was due anyway; S16 a failed growth payout keeps partial mints and can be repeated;
S17 executing everything due after revoking all nominations can fail for ever, depending on which collator sorts last, and fails whenever one nomination has no
request; S18 nominating exactly the minimum for each of several collators succeeds or fails with the block number.
W1 summary votes, end-of-vote calls and challenges sign no instance id; W2 the EIP-712 domain ignores the instance salt and a wrong-length bytes32
parameter panics; U1 rotating an author key leaves the old reverse entry, U2 a failed registration keeps a rotated key forever, U3 the session clean-up
drops the key of a pending removal, U4 author key entries are never cleared; W-check1 an anonymous log panics the event worker; W-check2 the confirmation
count wraps; W-check3 a result with too few confirmations is noted as validated; W-check4 a lagging node challenges honest results; W-check6 a receipt without a block number counts as final; W-check5 one undecidable
event blocks all later ones; SW1 summary votes name the root id, not the hash; SW2 proposals name only last block and ingress; SW3 an expired vote blames
honest authors; SW4 with one author a slot past its grace period is stuck.
L1 the core event filter contains `LiftedToPredictionMarket`, so discovery votes for such lifts and the bridge records them as processed and
reports `EventAccepted`, but no pallet of the production runtime handles their data: whoever lifts that way is never credited, and the
transaction cannot be processed again (C99).
D1 an additional transaction queued by the administrator whose block comes after the active range makes honest nodes vote for different
partitions, which can stop discovery for good (C98); even when voted, events after the range end are rejected.
B6 `add_confirmation` returns early when the confirmations collected already suffice; if the author set shrinks while a lower proof is
active so that they do, nothing ever completes it, the lower stays pending and every later request waits behind it until the
administrator removes it or the author set grows (C101).
N1 `eth/sign_hashed_data` reads the digest with `H256::from_slice` before it looks at the token: a body of any length other than 32 bytes
makes the handler panic, with no token at all (C103; only reachable on the node's own machine).
N2 the nonce of a transaction that is still pending is used again after a restart, since the count of the latest block is asked for (C104).
N3 the cached nonce is only refreshed when Ethereum calls it too low: after a dropped transaction, or a change of the node's Ethereum key,
every later transaction stays above the account's count until the node is restarted (C104).
N4 X-Auth tokens contain nothing that makes them usable once (C102).

Membership. V7 between its request to register and the result from Ethereum the registrant may nominate, spend its deposit or remove its
session keys; staking then refuses `join_candidates`, `process_result` fails, and with it every deciding `add_corroboration`
(`tx.rs:10-20` propagates the error): the registration stays the active request and blocks every transaction to Ethereum, and every other
change of validators, until the administrator removes it (C112, C113). The request is not even checked for
nominations or for room among the candidates, so an account that already nominates can ask to register and gets stuck without doing anything
more (`C112_a_nominator_may_register`). Nothing else is ever refused (`C113_only_unready_registrations_are_refused`). R1 `purge_keys` of all planned collators empties the list of authors
(C110). R2 a removed validator loses its Ethereum key at once although it remains an author for up to three sessions: it cannot confirm or
be assigned as sender meaningfully (C111). R3 if no candidate is eligible, the collators of the last selection are kept, also those that
have left and unlocked their bond (C111).

Two bridges (only `runtime/test`). D4 a transaction on the second instance's own record is not seen by the check before it has been moved: it
is delivered again (C114). D5 a record the main instance refuses (already accepted there) is put back and tried first again in the next
block: 64 of them in front of the iteration order stop the migration of all others for good (C114). D6 `InvalidNetwork` is reported as
“already processed”: a second instance on another network can never deliver anything (C114).

Transaction pool. Q1 the pool tag of a check result has the event but not the author, so the first (possibly false) result keeps the others
out while it waits; the same holds for processing an event, recording a root and advancing a slot. Q2 the tags of votes are equal across two
`Summary` instances for roots with the same blocks and counter. Q3 the bridge's tags contain the whole call with its signature (a randomised
one for sr25519), so an author's copies of one report all fit in the pool, at nearly the highest priority and without a fee (C115).

Replays. Q4 `validate_unsigned` of the bridge, of `record_summary_calculation`, of slot challenges and of event challenges does not look at
what was executed already, so everyone can put a validator's old signed reports into blocks again, at the highest priority and without a fee
(C116). Q5 the signed report of an Ethereum transaction hash names the transaction but not the attempt: an old report for an attempt that
failed can be handed in by anyone when the same author is the sender again; the old hash is recorded and the true one refused with
`EthTxHashAlreadySet` (C117). Setting the bridge instance starts the attempts at 0 again, so old corroborations count for the new attempt. Q6
the 51st challenge of an event is announced without being recorded, so it can be announced again and again (C117).

Growth and supply. Q7 an accepted growth lift mints the larger of the lifted rest and the sum of the collators' shares, which are rounded up, so a lift of 8
mints 9 (`C118_full_claim_false`); a growth lift for a period already paid out is rejected after the treasury was credited, and since events are processed without a storage
layer (F4) the treasury keeps the credit.

Messages. Q8 `xcm_config.rs:48-59,121` take the relay chain's own token for the native currency and the relay chain for its reserve (as the template does), so a reserve transfer of
relay tokens to an account here mints native tokens one to one in smallest units (`C123_full_claim_false`); nothing on Ethereum backs them, and they can be lowered.

Offences. O3 all offence types of a pallet share one kind per session, and a report whose offenders are all known is dropped before the event: the second offence of a validator in a session (six hours), of whatever type, leaves no offence event; in particular `add_challenge` reports `SlotNotAdvanced` and then `NoSummaryCreated` about the same validator in one call, and the latter is never announced (C127). O4 challenges that succeeded are not removed, so a later check of the same event by another validator is declared wrong and its checker reported without any new challenge (C126; a consequence of the C39 finding). O5 `pallet_offences` hands all offenders of the session to the handler each time: a validator that re-registered within the session is announced again for its old offence when somebody else is reported, while its own new offence of the same kind is not heard (C125). In the runtime the enforcer is `()`, so nobody is slashed at present.

Authority. GV1 the general_admin track (decision deposit 500 AVT) leads nowhere: no call of the runtime accepts its origin, so an approved referendum on it has no effect (C130). GV2 only root can whitelist calls (`WhitelistOrigin = EnsureRoot`), so the whitelisted_caller track is a faster lane only for what sudo or a root referendum already approved (C130). GV3 the filter that keeps collators from joining and leaving by themselves does not hold against `sudo_as` and `dispatch_as` (C129): a candidate made that way is unknown to the validators manager.

Connections. D7 `initialise_web3` gives up at the first address that does not answer `eth_chainId`, so an address that is down hides all
addresses listed after it; at the front of the list it keeps the node from voting at all (C139). D8 a connection is never replaced: when
the Ethereum node behind it fails later, other configured addresses of the same network are not tried (C138: one address per network). D9
an error in one bridge's round (a failing query, an event that does not read) ends the round for all bridges after it (C140); only a
missing connection is passed over.

Keys. V8 `rotate_validator_ethereum_key` (root) neither checks that the new key decompresses nor tells Ethereum: after a rotation to 33 bytes that are no point the validator cannot be removed until root rotates again (example in `Props/EthKey.lean`), and after any rotation the removal request names a key the bridge contract was never sent.

Migrations. G1 `migrate_to_v4` reads the stored active request with the *new* type of lower parameters (116 bytes): at version 3 an active
lower proof with confirmations can be misread — another request, no caller, confirmations gone — if three bytes of its hash and signatures
are zero (C105). G2 the validators manager's migration skips a chain of version 0 as "already up to date" (C106 says so: only version 1 is
migrated). G3 an active lower keeps its message hash and the confirmations of the old message, while its parameters change.

Offences of the bridge. D3 an additional transaction after the range end splits honest votes (D1); the partition that wins makes the pallet
report the honest authors of the others (C108). O2 the offences pallet hands *all* offenders of the session to the handler at each new
report, so an account that registered again in the same session is punished a second time when anybody else is reported (C107).
B7 `corroborate` reads the status of a transaction at the head of Ethereum when the transaction hash is unset or wrong, with no
confirmations required: a reorganisation can make honest authors contradict each other, and the smaller side is reported (in C108 that
the truth is one and the same for all honest authors is a hypothesis).
