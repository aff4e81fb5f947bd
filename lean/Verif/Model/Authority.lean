import Verif.Model.Xcm

/-!
# Who may make which call

The dispatch of calls in the runtime `runtime/avn`: the origins, the base call filter, the governance tracks and origins, the origin check of every call of the
pallets of this repository, and the calls of the library pallets that dispatch other calls (sudo, utility, scheduler, whitelist, referenda, the three proxies).
What a call does besides dispatching, scheduling or changing these tables is not modelled here: it is one entry in a log, and whether its own checks
pass is part of the input. The library pallets (pallet-sudo, pallet-utility, pallet-scheduler, pallet-whitelist, pallet-referenda, frame-support's
`RuntimeOrigin`) are not in /repo and are given as their documentation has them. Left out: weights, fees, deposits, voting itself (a step of the
environment decides it), preimages, retries and periods of scheduled tasks, the ban on nesting `batch_all` in itself (it only refuses more), `set_code`'s effect on the code.
-/

namespace Verif.Authority

open Verif.Xcm (Location OriginKind)



/-- runtime/avn/src/governance/origins.rs:33-42 `Origin`. -/
inductive Custom where
  | generalAdmin
  | referendumCanceller
  | referendumKiller
  | whitelistedCaller
  deriving DecidableEq

/-- The runtime's `OriginCaller`: `frame_system::RawOrigin`, the custom origins, and the origins of messages from other chains. -/
inductive Origin where
  | root
  | unsigned
  | signed (a : Acct)
  | custom (c : Custom)
  | relay
  | siblingPara (id : Nat)
  | xcm (l : Location)
  deriving DecidableEq

/-- Local origin of a message from another chain (`Model/Xcm.lean`). -/
def ofXcm : Xcm.Origin → Origin
  | .root => .root
  | .signed a => .signed a
  | .relay => .relay
  | .siblingPara id => .siblingPara id
  | .xcm l => .xcm l

/-- The calls of the pallets of this repository that the runtime contains (runtime/avn/src/lib.rs:253-369), without the three proxies, and some root
calls of library pallets. `executeLower a` is `execute_lower` with `from = a`. -/
inductive Leaf where
  -- eth-bridge
  | addConfirmation | addEthTxHash | addCorroboration | submitEthereumEvents | submitLatestEthereumBlock | bridgeSetAdminSetting
  -- validators-manager
  | addCollator | removeValidator | rotateValidatorEthereumKey
  -- parachain-staking
  | setTotalSelected | setBlocksPerEra | joinCandidates | scheduleLeaveCandidates | executeLeaveCandidates | cancelLeaveCandidates
  | goOffline | goOnline | candidateBondExtra | signedCandidateBondExtra | scheduleCandidateUnbond | executeCandidateUnbond
  | signedExecuteCandidateUnbond | cancelCandidateUnbond | signedScheduleCandidateUnbond | nominate | signedNominate
  | scheduleLeaveNominators | signedScheduleLeaveNominators | executeLeaveNominators | signedExecuteLeaveNominators
  | cancelLeaveNominators | scheduleRevokeNomination | signedScheduleRevokeNomination | bondExtra | signedBondExtra
  | scheduleNominatorUnbond | signedScheduleNominatorUnbond | executeNominationRequest | signedExecuteNominationRequest
  | cancelNominationRequest | hotfixRemoveNominationRequests | stakingSetAdminSetting
  -- avn, avn-transaction-payment, avn-offence-handler
  | setBridgeContract | setKnownSender | removeKnownSender | configureSlashing
  -- summary
  | setPeriods | recordSummaryCalculation | approveRoot | rejectRoot | endVotingPeriod | advanceSlot | addChallenge
  | setAdminConfig | adminResolveChallenge
  -- avn-anchor
  | registerChainHandler | updateChainHandler | submitCheckpoint | signedRegisterChainHandler | signedUpdateChainHandler
  | signedSubmitCheckpoint | setCheckpointFee
  -- token-manager
  | signedTransfer | transferFromTreasury | executeLower (from_ : Acct) | scheduleDirectLower | scheduleSignedLower | regenerateLowerProof
  | setLowerSchedulePeriod | toggleLowering | setNativeTokenEthAddress
  -- ethereum-events
  | submitCheckeventResult | processEvent | challengeEvent | addEthereumLog | signedAddEthereumLog | insertNftContract
  | setEventChallengePeriod
  -- nft-manager
  | mintSingleNft | signedMintSingleNft | listNftOpenForSale | signedListNftOpenForSale | signedTransferFiatNft
  | signedCancelListFiatNft | signedCreateBatch | signedMintBatchNft | signedListBatchForSale | signedEndBatchSale
  -- library pallets: the runtime's code, raw storage, balances and assets
  | systemSetCode | systemSetStorage | systemKillStorage | balancesForceTransfer | balancesForceSetBalance | assetsForceCreate
  | balancesTransfer
  deriving DecidableEq

/-- The origin a call asks for. -/
inductive Need where
  | root | signed | unsigned
  deriving DecidableEq

/-- The origin check that each call starts with: eth-bridge/src/lib.rs:435, 489, 526, 588, 649, 730; validators-manager/src/lib.rs:275, 307, 327;
parachain-staking/src/lib.rs:797, 816, 845-1637, 1663; avn/src/lib.rs:216; avn-transaction-payment/src/lib.rs:114, 172 (`KnownUserOrigin`, root by
runtime/avn/src/configs/mod.rs:493); avn-offence-handler/src/lib.rs:104; summary/src/lib.rs:470, 503, 566, 592, 615, 633, 649, 701, 756;
avn-anchor/src/lib.rs:218, 231, 253, 270, 293, 330, 364; token-manager/src/lib.rs:439, 473, 500, 524, 549, 593, 625, 636, 655;
ethereum-events/src/lib.rs:485, 546, 669, 735, 754, 782, 796; nft-manager/src/lib.rs:353-748. -/
def need : Leaf → Need
  | .addConfirmation | .addEthTxHash | .addCorroboration | .submitEthereumEvents | .submitLatestEthereumBlock => .unsigned
  | .bridgeSetAdminSetting => .root
  | .addCollator | .removeValidator | .rotateValidatorEthereumKey => .root
  | .setTotalSelected | .setBlocksPerEra | .stakingSetAdminSetting => .root
  | .joinCandidates | .scheduleLeaveCandidates | .executeLeaveCandidates | .cancelLeaveCandidates => .signed
  | .goOffline | .goOnline | .candidateBondExtra | .signedCandidateBondExtra | .scheduleCandidateUnbond | .executeCandidateUnbond => .signed
  | .signedExecuteCandidateUnbond | .cancelCandidateUnbond | .signedScheduleCandidateUnbond | .nominate | .signedNominate => .signed
  | .scheduleLeaveNominators | .signedScheduleLeaveNominators | .executeLeaveNominators | .signedExecuteLeaveNominators => .signed
  | .cancelLeaveNominators | .scheduleRevokeNomination | .signedScheduleRevokeNomination | .bondExtra | .signedBondExtra => .signed
  | .scheduleNominatorUnbond | .signedScheduleNominatorUnbond | .executeNominationRequest | .signedExecuteNominationRequest => .signed
  | .cancelNominationRequest | .hotfixRemoveNominationRequests => .signed
  | .setBridgeContract | .setKnownSender | .removeKnownSender | .configureSlashing => .root
  | .recordSummaryCalculation | .approveRoot | .rejectRoot | .endVotingPeriod | .advanceSlot | .addChallenge => .unsigned
  | .setPeriods | .setAdminConfig | .adminResolveChallenge => .root
  | .registerChainHandler | .updateChainHandler | .submitCheckpoint | .signedRegisterChainHandler | .signedUpdateChainHandler => .signed
  | .signedSubmitCheckpoint => .signed
  | .setCheckpointFee => .root
  | .transferFromTreasury | .executeLower _ | .setLowerSchedulePeriod | .toggleLowering | .setNativeTokenEthAddress => .root
  | .signedTransfer | .scheduleDirectLower | .scheduleSignedLower | .regenerateLowerProof => .signed
  | .submitCheckeventResult | .processEvent | .challengeEvent => .unsigned
  | .addEthereumLog | .signedAddEthereumLog => .signed
  | .insertNftContract | .setEventChallengePeriod => .root
  | .mintSingleNft | .signedMintSingleNft | .listNftOpenForSale | .signedListNftOpenForSale | .signedTransferFiatNft => .signed
  | .signedCancelListFiatNft | .signedCreateBatch | .signedMintBatchNft | .signedListBatchForSale | .signedEndBatchSale => .signed
  | .systemSetCode | .systemSetStorage | .systemKillStorage | .balancesForceTransfer | .balancesForceSetBalance | .assetsForceCreate => .root
  | .balancesTransfer => .signed

/-- `ensure_root`, `ensure_signed`, `ensure_none`. -/
def accepts : Need → Origin → Bool
  | .root, .root => true
  | .signed, .signed _ => true
  | .unsigned, .unsigned => true
  | _, _ => false

/-- The three calls that run another call for its signer: avn-proxy/src/lib.rs:124-192, token-manager/src/lib.rs:411-426, nft-manager/src/lib.rs:572-590. -/
inductive ProxyKind where
  | avn | token | nft
  deriving DecidableEq

/-- The calls that carry a proof: runtime/avn/src/proxy_config.rs:16-139; token-manager/src/lib.rs:1163-1167; nft-manager/src/lib.rs:1233-1243. -/
def provable : ProxyKind → Leaf → Bool
  | .token, l => l == .signedTransfer || l == .scheduleSignedLower
  | .nft, l =>
    l == .signedMintSingleNft || l == .signedListNftOpenForSale || l == .signedTransferFiatNft || l == .signedCancelListFiatNft ||
    l == .signedCreateBatch || l == .signedMintBatchNft || l == .signedListBatchForSale || l == .signedEndBatchSale
  | .avn, l =>
    l == .signedAddEthereumLog || l == .signedTransfer || l == .scheduleSignedLower || l == .signedMintSingleNft ||
    l == .signedListNftOpenForSale || l == .signedTransferFiatNft || l == .signedCancelListFiatNft || l == .signedCreateBatch ||
    l == .signedMintBatchNft || l == .signedListBatchForSale || l == .signedEndBatchSale || l == .signedCandidateBondExtra ||
    l == .signedExecuteCandidateUnbond || l == .signedScheduleCandidateUnbond || l == .signedNominate ||
    l == .signedScheduleLeaveNominators || l == .signedExecuteLeaveNominators || l == .signedScheduleRevokeNomination ||
    l == .signedBondExtra || l == .signedScheduleNominatorUnbond || l == .signedExecuteNominationRequest ||
    l == .signedRegisterChainHandler || l == .signedUpdateChainHandler || l == .signedSubmitCheckpoint

/-- `batch` stops at the first failure, `batch_all` fails with it, `force_batch` goes on. -/
inductive BatchKind where
  | batch | batchAll | forceBatch
  deriving DecidableEq

/-- Calls. `leaf l ok`: whether the call's own checks pass is part of the input, so is (`valid`) whether the relayer and the signature of a proxied
call's proof are right. -/
inductive Call where
  | leaf (l : Leaf) (ok : Bool)
  | batch (k : BatchKind) (cs : List Call)
  | asDerivative (index : Nat) (c : Call)
  | dispatchAs (o : Origin) (c : Call)
  | withWeight (c : Call)
  | sudo (c : Call)
  | sudoAs (who : Acct) (c : Call)
  | setKey (who : Acct)
  | removeKey
  | schedule (c : Call)
  | cancelTask (n : Nat)
  | submit (o : Origin) (c : Call)
  | cancelReferendum (i : Nat)
  | killReferendum (i : Nat)
  | whitelistCall (h : Nat)
  | removeWhitelistedCall (h : Nat)
  | dispatchWhitelisted (c : Call)
  | proxy (k : ProxyKind) (signer : Acct) (valid : Bool) (c : Call)

/-- runtime/avn/src/lib.rs:211-229 `RestrictedEndpointFilter::contains`. -/
def filter : Call → Bool
  | .leaf .joinCandidates _ => false
  | .leaf .scheduleLeaveCandidates _ => false
  | .leaf .executeLeaveCandidates _ => false
  | .leaf .cancelLeaveCandidates _ => false
  | _ => true

/-- runtime/avn/src/configs/mod.rs:121 `BaseCallFilter`: every origin but root carries the filter (frame-support: the conversion into `RuntimeOrigin`). -/
def passes (o : Origin) (c : Call) : Bool := if o = .root then true else filter c

/-- runtime/avn/src/governance/tracks.rs:120-140 `track_for`. -/
def trackFor : Origin → Option Nat
  | .root => some 0
  | .unsigned => none
  | .signed _ => none
  | .custom .whitelistedCaller => some 1
  | .custom .generalAdmin => some 2
  | .custom .referendumCanceller => some 3
  | .custom .referendumKiller => some 4
  | .relay => none
  | .siblingPara _ => none
  | .xcm _ => none

/-- A referendum's state. -/
inductive Status where
  | ongoing | approved | rejected | cancelled | killed
  deriving DecidableEq

/-- A referendum: the call and the origin it asks for. -/
structure Referendum where
  origin : Origin
  call : Call
  status : Status

/-- Accounts derived from accounts (`utility.as_derivative`), and the hashes by which whitelisted calls are known. -/
structure Env where
  derive : Acct → Nat → Acct
  hash : Call → Nat

/-- The tables that give or carry authority, and the log of the calls carried out. -/
structure Chain where
  key : Option Acct
  agenda : List (Origin × Call)
  referenda : List Referendum
  whitelist : List Nat
  log : List (Origin × Leaf)

/-- Set the status of an ongoing referendum. -/
def setStatus (s : Chain) (i : Nat) (st : Status) : Option Chain :=
  match s.referenda[i]? with
  | some r => if r.status = .ongoing then some { s with referenda := s.referenda.set i { r with status := st } } else none
  | none => none

/-- pallet-sudo `ensure_sudo`: root or the key. -/
def isSudo (s : Chain) : Origin → Bool
  | .root => true
  | .signed a => decide (s.key = some a)
  | _ => false

/-- runtime/avn/src/governance/mod.rs:65 `CancelOrigin`. -/
def mayCancel (o : Origin) : Bool := o == .root || o == .custom .referendumCanceller

/-- runtime/avn/src/governance/mod.rs:66 `KillOrigin`. -/
def mayKill (o : Origin) : Bool := o == .root || o == .custom .referendumKiller

/-- runtime/avn/src/governance/mod.rs:54 `DispatchWhitelistedOrigin`. -/
def mayDispatchWhitelisted (o : Origin) : Bool := o == .root || o == .custom .whitelistedCaller

/-- A call carried out: it is in the log, and the two requests to lower put `execute_lower` for the signer on the agenda, under root
(token-manager/src/lib.rs:517-585, 1074-1117). -/
def carryOut (l : Leaf) (o : Origin) (s : Chain) : Chain :=
  let s := { s with log := s.log ++ [(o, l)] }
  match l, o with
  | .scheduleDirectLower, .signed a => { s with agenda := s.agenda ++ [(.root, .leaf (.executeLower a) true)] }
  | .scheduleSignedLower, .signed a => { s with agenda := s.agenda ++ [(.root, .leaf (.executeLower a) true)] }
  | _, _ => s

/-- The call a proxied call carries. -/
def provableCall (k : ProxyKind) : Call → Bool
  | .leaf l _ => provable k l
  | _ => false

/-- Keep the state when the inner call failed: the wrapping call succeeds all the same. -/
def orKeep (s : Chain) : Option Chain → Chain
  | some s' => s'
  | none => s

/-- What a proxy makes of the inner call's result: the AvN proxy succeeds all the same, the other two fail with it. -/
def proxied (k : ProxyKind) (s : Chain) (r : Option Chain) : Option Chain :=
  match k with
  | .avn => some (orKeep s r)
  | .token => r
  | .nft => r

/-- What a batch does after a failure; `rest` is the rest of the batch. -/
def afterFailure (k : BatchKind) (s : Chain) (rest : Option Chain) : Option Chain :=
  match k with
  | .batch => some s
  | .batchAll => none
  | .forceBatch => rest

mutual
/-- `dispatch_bypass_filter`: run a call under an origin; `none` is an error, which leaves no writes. `utility` (configs/mod.rs:362-367): `batch` and its
kin refuse the unsigned origin and skip the filter under root; `as_derivative` needs a signer; `dispatch_as` and `with_weight` need root and skip the
filter. `sudo` (configs/mod.rs:356-360) skips the filter; its calls succeed whatever the inner call does. `scheduler` (configs/mod.rs:583-594): root
only. `referenda` (governance/mod.rs:58-77): anyone may submit, for an origin that has a track. `whitelist` (governance/mod.rs:49-56): root puts calls on the
list and takes them off; a listed call is run as root. -/
def exec (E : Env) : Call → Origin → Chain → Option Chain
  | .leaf l ok, o, s => if accepts (need l) o && ok then some (carryOut l o s) else none
  | .batch k cs, o, s => if o = .unsigned then none else execAll E k cs o s
  | .asDerivative i c, o, s =>
    match o with
    | .signed a => if passes (.signed (E.derive a i)) c then exec E c (.signed (E.derive a i)) s else none
    | _ => none
  | .dispatchAs o' c, o, s => if o = .root then some (orKeep s (exec E c o' s)) else none
  | .withWeight c, o, s => if o = .root then exec E c .root s else none
  | .sudo c, o, s => if isSudo s o then some (orKeep s (exec E c .root s)) else none
  | .sudoAs w c, o, s => if isSudo s o then some (orKeep s (exec E c (.signed w) s)) else none
  | .setKey w, o, s => if isSudo s o then some { s with key := some w } else none
  | .removeKey, o, s => if isSudo s o then some { s with key := none } else none
  | .schedule c, o, s => if o = .root then some { s with agenda := s.agenda ++ [(o, c)] } else none
  | .cancelTask n, o, s => if o = .root then some { s with agenda := s.agenda.eraseIdx n } else none
  | .submit o' c, o, s =>
    match o with
    | .signed _ => if (trackFor o').isSome then some { s with referenda := s.referenda ++ [⟨o', c, .ongoing⟩] } else none
    | _ => none
  | .cancelReferendum i, o, s => if mayCancel o then setStatus s i .cancelled else none
  | .killReferendum i, o, s => if mayKill o then setStatus s i .killed else none
  | .whitelistCall h, o, s => if o = .root then some { s with whitelist := s.whitelist ++ [h] } else none
  | .removeWhitelistedCall h, o, s => if o = .root then some { s with whitelist := s.whitelist.filter (· ≠ h) } else none
  | .dispatchWhitelisted c, o, s =>
    if mayDispatchWhitelisted o && s.whitelist.contains (E.hash c) then
      some (orKeep { s with whitelist := s.whitelist.filter (· ≠ E.hash c) }
        (exec E c .root { s with whitelist := s.whitelist.filter (· ≠ E.hash c) }))
    else none
  | .proxy k signer valid c, o, s =>
    match o with
    | .signed _ =>
      if provableCall k c && valid && passes (.signed signer) c then
        proxied k s (exec E c (.signed signer) s)
      else none
    | _ => none

/-- The calls of a batch, each under the filter of the batch's origin. -/
def execAll (E : Env) (k : BatchKind) : List Call → Origin → Chain → Option Chain
  | [], _, s => some s
  | c :: cs, o, s =>
    match (if passes o c then exec E c o s else none) with
    | some s' => execAll E k cs o s'
    | none => afterFailure k s (execAll E k cs o s)
end

/-- `Dispatchable::dispatch`: the filter, then the call. -/
def dispatch (E : Env) (c : Call) (o : Origin) (s : Chain) : Option Chain :=
  if passes o c then exec E c o s else none

/-- What happens: signed and unsigned transactions, calls in messages from other chains (runtime/avn/src/configs/xcm_config.rs:64-80, 140), the outcome of a vote, and
the scheduler running an entry of its agenda. -/
inductive Step where
  | tx (a : Acct) (c : Call)
  | unsignedTx (c : Call)
  | remote (l : Location) (k : OriginKind) (c : Call)
  | approve (i : Nat)
  | reject (i : Nat)
  | service (n : Nat)

/-- One step. An approved referendum's call goes on the agenda under the referendum's origin. -/
def step (E : Env) (s : Chain) : Step → Chain
  | .tx a c => orKeep s (dispatch E c (.signed a) s)
  | .unsignedTx c => orKeep s (dispatch E c .unsigned s)
  | .remote l k c =>
    match Xcm.toOrigin l k with
    | some o => orKeep s (dispatch E c (ofXcm o) s)
    | none => s
  | .approve i =>
    match s.referenda[i]?, setStatus s i .approved with
    | some r, some s' => { s' with agenda := s'.agenda ++ [(r.origin, r.call)] }
    | _, _ => s
  | .reject i => orKeep s (setStatus s i .rejected)
  | .service n =>
    match s.agenda[n]? with
    | some (o, c) =>
      orKeep { s with agenda := s.agenda.eraseIdx n } (dispatch E c o { s with agenda := s.agenda.eraseIdx n })
    | none => s

def run (E : Env) (s : Chain) (h : List Step) : Chain := h.foldl (step E) s

/-- The chain at genesis, with or without a sudo key. -/
def genesis (k : Option Acct) : Chain := ⟨k, [], [], [], []⟩

end Verif.Authority
