import Verif.Model.Common
import Verif.Model.Lower

/-!
# Token manager pallet
pallets/token-manager/src/lib.rs

Functions return the mutated state *and* an optional error, so that code which is not run inside a storage layer keeps
its partial effects. `transactional` is the storage layer FRAME puts around every extrinsic.
-/

namespace Verif.TokenManager
open Verif.Lower

/-- pallets/token-manager/src/lib.rs:283-311 `Error` (those the model can return) plus errors from other pallets. -/
inductive Err where
  | senderNotValid | unauthorizedSignedTransfer | unauthorizedSignedLower | unauthorizedProxy | notSupported
  | insufficientSenderBalance | amountOverflow | amountIsZero | lowerFailed | depositFailed
  | loweringDisabled | invalidLowerId | invalidEthAddress | noTier1Event | lowerDataLimitExceeded
  | currency | scheduler | bridge | growthHandler | invalidLiftRequest
deriving DecidableEq

/-- The scheduled call `execute_lower` (pallets/token-manager/src/lib.rs:1084-1092); `to_account_id` only reaches an event
and is not modelled. -/
structure LowerCall where
  sender : Acct
  token : Addr
  amount : Nat
  t1Recipient : Addr
deriving DecidableEq

/-- Storage of the pallet (lib.rs:313-364), the native balances (`free` of pallet-balances) and the scheduler agenda entries
named `("Lower", id)`. `LowerAccountId` (event data only) is not modelled. -/
structure State where
  bal : Addr → Acct → Nat
  avt : Acct → Nat
  nonce : Acct → Nat
  lowerNonce : Nat
  scheduled : Nat → Option LowerCall
  pending : Nat → Option (List UInt8)
  ready : Nat → Option (List UInt8)
  failed : Nat → Option (List UInt8)
  lowersDisabled : Bool
  avtContract : Addr
  lowerPeriod : Nat

/-- What a call sees of the rest of the runtime, arbitrary at every call: locked native funds, the outcome of
`schedule_named` (beyond the name clash) and of `generate_lower_proof`, `ProcessedEventsChecker`, the timestamp, the treasury
account, `TreasuryGrowthPercentage` (as `Perbill` parts), and the growth handler (new native balances, success). -/
structure Env where
  crypto : Crypto
  frozen : Acct → Nat
  scheduleOk : Bool
  bridgeOk : Bool
  eventKnown : Bool
  now : Nat
  treasury : Acct
  growthPct : Nat
  growthHandler : (amount period : Nat) → (Acct → Nat) → (Acct → Nat) × Bool

/-- State after, and the error if any. -/
abbrev Res := State × Option Err

/-- FRAME storage layer around an extrinsic: an error discards every write. -/
def transactional (s : State) (r : Res) : Res :=
  match r.2 with
  | none => r
  | some e => (s, some e)

/-- `Currency::transfer(from, to, amount, KeepAlive)` of pallet-balances with existential deposit 0
(runtime/avn/src/lib.rs:162): zero amount or self transfer is a no-op, otherwise funds, locks and overflow are checked. -/
def nativeTransfer (env : Env) (s : State) (frm dst : Acct) (amount : Nat) : Res :=
  if amount = 0 ∨ frm = dst then (s, none)
  else if s.avt frm < amount then (s, some .currency)
  else if s.avt frm - amount < env.frozen frm then (s, some .currency)
  else if s.avt dst + amount ≥ pow128 then (s, some .currency)
  else
    let avt1 := upd s.avt frm (s.avt frm - amount)
    ({ s with avt := upd avt1 dst (avt1 dst + amount) }, none)

/-- pallets/token-manager/src/lib.rs:679-724 `settle_transfer`. -/
def settleTransfer (env : Env) (s : State) (token : Addr) (frm dst : Acct) (amount : Nat) : Res :=
  if token = s.avtContract then nativeTransfer env s frm dst amount
  else if s.bal token frm < amount then (s, some .insufficientSenderBalance)
  else if frm ≠ dst ∧ checkedAdd128 (s.bal token dst) amount = none then (s, some .amountOverflow)
  else
    let b1 := upd s.bal token (upd (s.bal token) frm (s.bal token frm - amount))
    ({ s with bal := upd b1 token (upd (b1 token) dst (b1 token dst + amount)) }, none)

/-- `Currency::withdraw(from, amount, TRANSFER, KeepAlive)`, existential deposit 0; the dropped imbalance reduces issuance. -/
def nativeWithdraw (env : Env) (s : State) (frm : Acct) (amount : Nat) : Res :=
  if amount = 0 then (s, none)
  else if s.avt frm < amount then (s, some .currency)
  else if s.avt frm - amount < env.frozen frm then (s, some .currency)
  else ({ s with avt := upd s.avt frm (s.avt frm - amount) }, none)

/-- pallets/token-manager/src/lib.rs:726-796 `settle_lower`. The last step `generate_lower_proof` can fail after the writes. -/
def settleLower (env : Env) (s : State) (token : Addr) (frm : Acct) (amount : Nat) (t1 : Addr) (lowerId : Nat) : Res :=
  let burned : Res :=
    if token = s.avtContract then
      match nativeWithdraw env s frm amount with
      | (s1, some e) => (s1, some e)
      | (s1, none) => if amount = 0 then (s1, some .lowerFailed) else (s1, none)
    else if s.bal token frm < amount then (s, some .insufficientSenderBalance)
    else ({ s with bal := upd s.bal token (upd (s.bal token) frm (s.bal token frm - amount)) }, none)
  match burned with
  | (s1, some e) => (s1, some e)
  | (s1, none) =>
    let params := concatLowerData { token := token, amount := amount, recipient := t1, lowerId := lowerId,
                                    t2Sender := frm, t2Timestamp := env.now }
    let s2 := { s1 with pending := upd s1.pending lowerId (some params) }
    if env.bridgeOk then (s2, none) else (s2, some .bridge)

/-- pallets/token-manager/src/lib.rs:798-813 `credit_avt_balance`: `deposit_creating` yields a zero imbalance for a zero amount
or on overflow, which is reported as `DepositFailed`. -/
def creditAvt (s : State) (who : Acct) (amount : Nat) : Res :=
  if amount = 0 ∨ s.avt who + amount ≥ pow128 then (s, some .depositFailed)
  else ({ s with avt := upd s.avt who (s.avt who + amount) }, none)

/-- pallets/token-manager/src/lib.rs:815-829 `credit_token_balance`. -/
def creditToken (s : State) (token : Addr) (who : Acct) (amount : Nat) : Res :=
  match checkedAdd128 (s.bal token who) amount with
  | none => (s, some .amountOverflow)
  | some n => ({ s with bal := upd s.bal token (upd (s.bal token) who n) }, none)

/-- The SCALE bytes of `SIGNED_TRANSFER_CONTEXT` (lib.rs:100). -/
def transferContext : List UInt8 := ascii "authorization for transfer operation"
/-- The SCALE bytes of `SIGNED_LOWER_CONTEXT` (lib.rs:101). -/
def lowerContext : List UInt8 := ascii "authorization for lower operation"

/-- pallets/token-manager/src/lib.rs:854-872 `encode_signed_transfer_params`. -/
def encodeTransfer (relayer frm dst : Acct) (token : Addr) (amount nonce : Nat) : List UInt8 :=
  scaleBytes transferContext ++ (relayer.toList ++ (frm.toList ++ (dst.toList ++ (token.toList ++
    (leBytes 16 amount ++ leBytes 8 nonce)))))

/-- pallets/token-manager/src/lib.rs:874-892 `encode_signed_lower_params`. -/
def encodeLower (relayer frm : Acct) (token : Addr) (amount : Nat) (t1 : Addr) (nonce : Nat) : List UInt8 :=
  scaleBytes lowerContext ++ (relayer.toList ++ (frm.toList ++ (token.toList ++ (leBytes 16 amount ++
    (t1.toList ++ leBytes 8 nonce)))))

/-- pallets/token-manager/src/lib.rs:431-463 `signed_transfer` (body; `origin` is the signed origin). -/
def signedTransfer (env : Env) (s : State) (origin : Acct) (p : Proof) (frm dst : Acct) (token : Addr) (amount : Nat) :
    Res :=
  if origin ≠ frm then (s, some .senderNotValid)
  else if !verifySignature env.crypto p (encodeTransfer p.relayer frm dst token amount (s.nonce origin)) then
    (s, some .unauthorizedSignedTransfer)
  else
    match settleTransfer env s token frm dst amount with
    | (s1, some e) => (s1, some e)
    | (s1, none) => ({ s1 with nonce := upd s1.nonce frm (wrapInc64 (s1.nonce frm)) }, none)

/-- pallets/token-manager/src/lib.rs:1074-1117 `schedule_lower`. The agenda name is the blake2 hash of `("Lower", lower_id)`;
the model keys it by the id. A name already in use makes `schedule_named` fail. -/
def scheduleLower (env : Env) (s : State) (frm : Acct) (token : Addr) (amount : Nat) (t1 : Addr) : Res :=
  if (s.scheduled s.lowerNonce).isSome ∨ env.scheduleOk = false then (s, some .scheduler)
  else
    ({ s with scheduled := upd s.scheduled s.lowerNonce (some ⟨frm, token, amount, t1⟩),
              lowerNonce := wrapInc32 s.lowerNonce }, none)

/-- pallets/token-manager/src/lib.rs:517-536 `schedule_direct_lower`. -/
def scheduleDirectLower (env : Env) (s : State) (origin frm : Acct) (token : Addr) (amount : Nat) (t1 : Addr) : Res :=
  if origin ≠ frm then (s, some .senderNotValid)
  else if s.lowersDisabled then (s, some .loweringDisabled)
  else if amount = 0 then (s, some .amountIsZero)
  else scheduleLower env s frm token amount t1

/-- pallets/token-manager/src/lib.rs:541-585 `schedule_signed_lower`. -/
def scheduleSignedLower (env : Env) (s : State) (origin : Acct) (p : Proof) (frm : Acct) (token : Addr) (amount : Nat)
    (t1 : Addr) : Res :=
  if origin ≠ frm then (s, some .senderNotValid)
  else if s.lowersDisabled then (s, some .loweringDisabled)
  else if amount = 0 then (s, some .amountIsZero)
  else if !verifySignature env.crypto p (encodeLower p.relayer frm token amount t1 (s.nonce origin)) then
    (s, some .unauthorizedSignedLower)
  else
    match scheduleLower env s frm token amount t1 with
    | (s1, some e) => (s1, some e)
    | (s1, none) => ({ s1 with nonce := upd s1.nonce frm (wrapInc64 (s1.nonce frm)) }, none)

/-- pallets/token-manager/src/lib.rs:491-512 `execute_lower` (root origin). -/
def executeLower (env : Env) (s : State) (c : LowerCall) (lowerId : Nat) : Res :=
  if s.lowersDisabled then (s, some .loweringDisabled)
  else settleLower env s c.token c.sender c.amount c.t1Recipient lowerId

/-- The scheduler runs a due task once: the agenda entry is removed whatever the outcome, the call itself is transactional
(pallet-scheduler `service_task`, no retry configuration). -/
def dispatchScheduled (env : Env) (s : State) (lowerId : Nat) : Res :=
  match s.scheduled lowerId with
  | none => (s, none)
  | some c =>
    let s0 := { s with scheduled := upd s.scheduled lowerId none }
    transactional s0 (executeLower env s0 c lowerId)

/-- pallets/token-manager/src/lib.rs:847-852 `regenerate_proof`. -/
def regenerateProof (env : Env) (s : State) (lowerId : Nat) (params : List UInt8) : Res :=
  let s1 := { s with pending := upd s.pending lowerId (some params) }
  if env.bridgeOk then (s1, none) else (s1, some .bridge)

/-- pallets/token-manager/src/lib.rs:589-617 `regenerate_lower_proof`. -/
def regenerateLowerProof (env : Env) (s : State) (lowerId : Nat) : Res :=
  if s.lowersDisabled then (s, some .loweringDisabled)
  else match s.ready lowerId with
    | some params => regenerateProof env { s with ready := upd s.ready lowerId none } lowerId params
    | none =>
      match s.failed lowerId with
      | some params => regenerateProof env { s with failed := upd s.failed lowerId none } lowerId params
      | none => (s, some .invalidLowerId)

/-- pallets/token-manager/src/lib.rs:468-486 `transfer_from_treasury` (root). -/
def transferFromTreasury (env : Env) (s : State) (recipient : Acct) (amount : Nat) : Res :=
  if amount = 0 then (s, some .amountIsZero) else nativeTransfer env s env.treasury recipient amount

/-- pallets/token-manager/src/lib.rs:651-667 `set_native_token_eth_address` (root). -/
def setNativeTokenEthAddress (s : State) (a : Addr) : Res :=
  if a = Vector.replicate 20 0 then (s, some .invalidEthAddress) else ({ s with avtContract := a }, none)

/-- Data of the Ethereum events this pallet reacts to (primitives/avn-common/src/event_types.rs). A 32 byte receiver always
decodes to an account. -/
inductive EventData where
  | lifted (token : Addr) (receiver : Acct) (amount : Nat)
  | growthLifted (amount period : Nat)
  | lowerClaimed (lowerId : Nat)
  | lowerReverted (token : Addr) (receiver : Acct) (amount lowerId : Nat)
  | other
deriving DecidableEq

/-- pallets/token-manager/src/lib.rs:938-969 `process_lift`. -/
def processLift (env : Env) (s : State) (token : Addr) (receiver : Acct) (amount : Nat) : Res :=
  if !env.eventKnown then (s, some .noTier1Event)
  else if amount = 0 then (s, some .amountIsZero)
  else if token = s.avtContract then creditAvt s receiver amount
  else creditToken s token receiver amount

/-- pallets/token-manager/src/lib.rs:971-1000 `process_avt_growth_lift`. -/
def processGrowthLift (env : Env) (s : State) (amount period : Nat) : Res :=
  if !env.eventKnown then (s, some .noTier1Event)
  else if amount = 0 then (s, some .amountIsZero)
  else
    let share := perbillMul env.growthPct amount
    match creditAvt s env.treasury share with
    | (s1, some e) => (s1, some e)
    | (s1, none) =>
      let (avt', ok) := env.growthHandler (amount - share) period s1.avt
      ({ s1 with avt := avt' }, if ok then none else some .growthHandler)

/-- pallets/token-manager/src/lib.rs:1013-1021 `remove_used_lower`. -/
def removeUsedLower (s : State) (lowerId : Nat) : Res :=
  match s.ready lowerId with
  | none => (s, some .invalidLowerId)
  | some _ => ({ s with ready := upd s.ready lowerId none }, none)

/-- pallets/token-manager/src/lib.rs:1002-1011 `process_lower_claim`. -/
def processLowerClaim (env : Env) (s : State) (lowerId : Nat) : Res :=
  if !env.eventKnown then (s, some .noTier1Event) else removeUsedLower s lowerId

/-- pallets/token-manager/src/lib.rs:1023-1058 `process_lower_reverted`. -/
def processLowerReverted (env : Env) (s : State) (token : Addr) (receiver : Acct) (amount lowerId : Nat) : Res :=
  if !env.eventKnown then (s, some .noTier1Event)
  else match removeUsedLower s lowerId with
    | (s1, some e) => (s1, some e)
    | (s1, none) =>
      if amount = 0 then (s1, some .amountIsZero)
      else if token = s.avtContract then creditAvt s1 receiver amount
      else creditToken s1 token receiver amount

/-- pallets/token-manager/src/lib.rs:1119-1129 `processed_event_handler` (called from the bridge, *not* in a storage layer). -/
def processedEventHandler (env : Env) (s : State) : EventData → Res
  | .lifted t r a => processLift env s t r a
  | .growthLifted a p => processGrowthLift env s a p
  | .lowerClaimed i => processLowerClaim env s i
  | .lowerReverted t r a i => processLowerReverted env s t r a i
  | .other => (s, none)

/-- `LowerDataLimit` (lib.rs:74). -/
def lowerDataLimit : Nat := 10000

/-- pallets/token-manager/src/lib.rs:1212-1237 `process_lower_proof_result`: `caller` says whether the caller id is this
pallet's, `data` is the proof length or a failure (the proof bytes themselves are opaque). -/
def processLowerProofResult (s : State) (lowerId : Nat) (caller : Bool) (data : Option Nat) : Res :=
  match s.pending lowerId with
  | none => (s, none)
  | some params =>
    if !caller then (s, none)
    else
      let s1 := { s with pending := upd s.pending lowerId none }
      match data with
      | some len => if len ≤ lowerDataLimit then ({ s1 with ready := upd s1.ready lowerId (some params) }, none)
                    else (s1, some .lowerDataLimitExceeded)
      | none => ({ s1 with failed := upd s1.failed lowerId (some params) }, none)

/-- The calls a relayer may proxy (pallets/token-manager/src/lib.rs:1147-1161 `get_proof`). -/
inductive ProxyCall where
  | transfer (p : Proof) (frm dst : Acct) (token : Addr) (amount : Nat)
  | lower (p : Proof) (frm : Acct) (token : Addr) (amount : Nat) (t1 : Addr)
  | unsupported

/-- pallets/token-manager/src/lib.rs:411-426 `proxy`. -/
def proxy (env : Env) (s : State) (relayer : Acct) : ProxyCall → Res
  | .transfer p f d t a =>
    if relayer ≠ p.relayer then (s, some .unauthorizedProxy)
    else transactional s (signedTransfer env s p.signer p f d t a)
  | .lower p f t a t1 =>
    if relayer ≠ p.relayer then (s, some .unauthorizedProxy)
    else transactional s (scheduleSignedLower env s p.signer p f t a t1)
  | .unsupported => (s, some .notSupported)

/-- Everything that can change the pallet's state. Extrinsics carry their signed origin; `root*` need the root origin.
`external` is any activity of other pallets on native balances. -/
inductive Step where
  | proxy (relayer : Acct) (c : ProxyCall)
  | signedTransfer (origin : Acct) (p : Proof) (frm dst : Acct) (token : Addr) (amount : Nat)
  | scheduleDirectLower (origin frm : Acct) (token : Addr) (amount : Nat) (t1 : Addr)
  | scheduleSignedLower (origin : Acct) (p : Proof) (frm : Acct) (token : Addr) (amount : Nat) (t1 : Addr)
  | regenerateLowerProof (requester : Acct) (lowerId : Nat)
  | rootTreasury (recipient : Acct) (amount : Nat)
  | rootExecuteLower (c : LowerCall) (lowerId : Nat)
  | rootSetPeriod (n : Nat)
  | rootToggleLowering (enabled : Bool)
  | rootSetNative (a : Addr)
  | rootCancelScheduled (lowerId : Nat)
  | dispatchScheduled (lowerId : Nat)
  | event (d : EventData)
  | lowerProofResult (lowerId : Nat) (caller : Bool) (data : Option Nat)
  /-- lib.rs:1250-1257 `pay_fee`, called by the proxy pallet inside its transactional call after the payer's authorisation. -/
  | payFee (token : Addr) (amount : Nat) (payer recipient : Acct)
  /-- lib.rs:1258-1265 `pay_treasury`, called by the anchor pallet inside a transactional call. -/
  | payTreasury (amount : Nat) (payer : Acct)
  /-- lib.rs:1270-1285 `TokenInterface::process_lift` of a prediction market / ERC20 event. -/
  | interfaceLift (token : Addr) (receiver : Acct) (amount : Nat)
  /-- lib.rs:1287-1294 `deposit_tokens` by another pallet. -/
  | depositTokens (token : Addr) (receiver : Acct) (amount : Nat)
  | external (avt' : Acct → Nat)

/-- One step: extrinsics are transactional, event handlers and bridge callbacks are not. -/
def step (env : Env) (s : State) : Step → Res
  | .proxy r c => transactional s (proxy env s r c)
  | .signedTransfer o p f d t a => transactional s (signedTransfer env s o p f d t a)
  | .scheduleDirectLower o f t a t1 => transactional s (scheduleDirectLower env s o f t a t1)
  | .scheduleSignedLower o p f t a t1 => transactional s (scheduleSignedLower env s o p f t a t1)
  | .regenerateLowerProof _ i => transactional s (regenerateLowerProof env s i)
  | .rootTreasury r a => transactional s (transferFromTreasury env s r a)
  | .rootExecuteLower c i => transactional s (executeLower env s c i)
  | .rootSetPeriod n => ({ s with lowerPeriod := n }, none)
  | .rootToggleLowering e => ({ s with lowersDisabled := !e }, none)
  | .rootSetNative a => transactional s (setNativeTokenEthAddress s a)
  | .rootCancelScheduled i => ({ s with scheduled := upd s.scheduled i none }, none)
  | .dispatchScheduled i => dispatchScheduled env s i
  | .event d => processedEventHandler env s d
  | .lowerProofResult i c d => processLowerProofResult s i c d
  | .payFee t a p r => transactional s (settleTransfer env s t p r a)
  | .payTreasury a p => transactional s (settleTransfer env s s.avtContract p env.treasury a)
  | .interfaceLift t r a => processLift env s t r a
  | .depositTokens t r a => creditToken s t r a
  | .external avt' => ({ s with avt := avt' }, none)

/-- A history: every step with the environment it meets. -/
def run (s : State) : List (Env × Step) → State
  | [] => s
  | (env, st) :: rest => run (step env s st).1 rest

end Verif.TokenManager
