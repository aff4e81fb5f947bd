import Verif.Model.Avn
import Verif.Model.Encoding

/-!
# Model of the outgoing half of `pallets/eth-bridge`: request queue, confirmations, corroborations

Account ids, Ethereum hashes, ECDSA signatures and the lower parameters are opaque numbers. Message hashing, ECDSA
recovery (with the validator lookup by Ethereum key) and UTF-8 validation are parameters (`Env`). The rest of the
runtime is an arbitrary type `W`; the two notifications it receives are arbitrary functions that do not call back into
this pallet (true of every `process_result`/`process_lower_proof_result` in the repository). Events
and weights are not modelled; offences are in `Model/BridgeOffence`.
-/

namespace Verif.BridgeTx

open Verif (ascii)

/-- A parameter: type name and value, both byte strings. -/
abbrev Param := List UInt8 × List UInt8

/-- `SendRequestData`. Models `pallets/eth-bridge/src/types.rs:34-39`. -/
structure SendReq where
  txId : Nat
  name : List UInt8
  params : List Param
  callerId : List UInt8
deriving DecidableEq, Repr

/-- `LowerProofRequestData`. Models `pallets/eth-bridge/src/types.rs:87-91`. -/
structure LowerReq where
  lowerId : Nat
  params : Nat
  callerId : List UInt8
deriving DecidableEq, Repr

/-- `Request`. Models `pallets/eth-bridge/src/types.rs:12-15`. -/
inductive Request where
  | send (r : SendReq)
  | lower (r : LowerReq)
deriving DecidableEq, Repr

/-- `Request::id_matches`. Models `pallets/eth-bridge/src/types.rs:24-29`. -/
def Request.idMatches : Request → Nat → Bool
  | .send r, id => r.txId == id
  | .lower r, id => r.lowerId == id

/-- `ActiveEthTransaction`. Models `pallets/eth-bridge/src/types.rs:147-160`. The repeated function name, and
`tx_succeeded` which is only set when settling, are omitted. -/
structure TxData where
  params : List Param
  sender : Nat
  expiry : Nat
  ethTxHash : Nat
  success : List Nat
  failure : List Nat
  validHash : List Nat
  invalidHash : List Nat
  replay : Nat
deriving DecidableEq, Repr

/-- `ActiveRequestData`. Models `pallets/eth-bridge/src/types.rs:112-117`. -/
structure Active where
  request : Request
  msgHash : Nat
  confirmations : List Nat
  txData : Option TxData
  lastUpdated : Nat
deriving DecidableEq, Repr

/-- `TransactionData`, a settled transaction. Models `pallets/eth-bridge/src/types.rs:102-108`. -/
structure Settled where
  name : List UInt8
  params : List Param
  sender : Nat
  ethTxHash : Nat
  succeeded : Bool
deriving DecidableEq, Repr

/-- Ghost log: accepted requests (calls of `publish`/`generate_lower_proof` that returned `Ok`) and the notifications
sent to the rest of the runtime (`process_result`, `process_lower_proof_result`). -/
inductive Obs where
  | accepted (r : Request)
  | result (txId : Nat) (callerId : List UInt8) (ok : Bool)
  | lowerResult (lowerId : Nat) (callerId : List UInt8) (proof : Option (Nat × List Nat))
deriving DecidableEq, Repr

/-- Storage used here. `avn` is the AvN pallet's author list and sender rotation, `now` the time in seconds, `instanceId` the
bridge instance. Models `pallets/eth-bridge/src/lib.rs:259-278`. -/
structure State (W : Type) where
  nextTxId : Nat
  lifetime : Nat
  queue : List Request
  active : Option Active
  settled : Nat → Option Settled
  avn : Avn.State
  instanceId : Nat
  now : Nat
  block : Nat
  world : W
  log : List Obs

/-- External functions. `fnHash name params instance` = `create_function_confirmation_hash`, `lowerHash` =
`create_lower_proof_hash`, `signer msgHash sig` = the validator account whose Ethereum key the signature recovers to,
`onResult`/`onLower` = the notifications (`false` = error), `maxQueued` = `MaxQueuedTxRequests`. -/
structure Env (W : Type) where
  validUtf8 : List UInt8 → Bool
  fnHash : List UInt8 → List Param → Nat → Option Nat
  lowerHash : Nat → Nat → Option Nat
  signer : Nat → Nat → Option Nat
  onResult : W → Nat → List UInt8 → Bool → W × Bool
  onLower : W → Nat → List UInt8 → Option (Nat × List Nat) → W × Bool
  maxQueued : Nat

/-- Errors. Models `pallets/eth-bridge/src/lib.rs:365-421`. -/
inductive Err where
  | functionName | emptyFunctionName | functionNameLimit | paramsLimit | callerIdLength | queueFull | msgHash
  | lowerParams | assignSender | invalidEcdsa | duplicateConfirmation | confirmationLimit | hashAlreadySet
  | hashMustBeSetBySender | invalidCorroborationData | ownTransaction | corroborationLimit | notificationFailed
  | noActiveRequest | invalidInstance
deriving DecidableEq, Repr

variable {W : Type} (env : Env W)

/-- `bound_params`: at most 5 parameters, type names of at most 7 bytes, values of at most 130.
Models `pallets/eth-bridge/src/util.rs:34-52`, `pallets/eth-bridge/src/lib.rs:140-142`. -/
def paramsFit (ps : List Param) : Bool :=
  ps.all (fun p => p.1.length ≤ 7 && p.2.length ≤ 130) && ps.length ≤ 5

/-- `extend_params`: append expiry and transaction id as decimal strings.
Models `pallets/eth-bridge/src/types.rs:70-82`. -/
def extendParams (r : SendReq) (expiry : Nat) : Option (List Param) :=
  let ps := r.params ++
    [(ascii "uint256", ascii (toString expiry)), (ascii "uint32", ascii (toString r.txId))]
  if paramsFit ps then some ps else none

/-- `set_up_active_tx`. Errors have no effect on storage: the only write before the final `put` is in `assign_sender`, the
last fallible operation. Models `pallets/eth-bridge/src/tx.rs:82-124,145-153`. -/
def setUpTx (s : State W) (r : SendReq) (replay : Nat) : Except Err (State W) :=
  let expiry := s.now + s.lifetime
  match extendParams r expiry with
  | none => .error .paramsLimit
  | some ps =>
    match env.fnHash r.name ps s.instanceId with
    | none => .error .msgHash
    | some h =>
      match Avn.advancePrimary s.avn with
      | .error _ => .error .assignSender
      | .ok (sender, avn) =>
        let tx : TxData := {
          params := ps, sender := sender, expiry := expiry, ethTxHash := 0, success := [], failure := []
          validHash := [], invalidHash := [], replay := replay }
        let act : Active := {
          request := .send r, msgHash := h, confirmations := [], txData := some tx, lastUpdated := s.block }
        .ok { s with avn := avn, active := some act }

/-- `set_up_active_lower_proof`. Models `pallets/eth-bridge/src/request.rs:126-140`. -/
def setUpLower (s : State W) (r : LowerReq) : Except Err (State W) :=
  match env.lowerHash r.params s.instanceId with
  | none => .error .lowerParams
  | some h =>
    let act : Active := {
      request := .lower r, msgHash := h, confirmations := [], txData := none, lastUpdated := s.block }
    .ok { s with active := some act }

/-- Set up either kind of request. -/
def setUp (s : State W) : Request → Except Err (State W)
  | .send r => setUpTx env s r 0
  | .lower r => setUpLower env s r

/-- Notify the originating pallet that a request failed (result ignored).
Models `pallets/eth-bridge/src/request.rs:70-74,82-86`. -/
def notifyFailed (s : State W) : Request → State W
  | .send r =>
    { s with world := (env.onResult s.world r.txId r.callerId false).1, log := s.log ++ [.result r.txId r.callerId false] }
  | .lower r =>
    { s with
      world := (env.onLower s.world r.lowerId r.callerId none).1
      log := s.log ++ [.lowerResult r.lowerId r.callerId none] }

/-- The loop of `process_next_request`: take requests off the queue until one can be set up.
Models `pallets/eth-bridge/src/request.rs:61-92,158-173`. -/
def processQueue (s : State W) : List Request → State W
  | [] => { s with queue := [] }
  | r :: rest =>
    match setUp env { s with queue := rest } r with
    | .ok s' => s'
    | .error _ => processQueue (notifyFailed env s r) rest

/-- `process_next_request`. Models `pallets/eth-bridge/src/request.rs:61-92`. -/
def processNext (s : State W) : State W := processQueue env { s with active := none } s.queue

/-- `queue_request`. Models `pallets/eth-bridge/src/request.rs:142-156`. -/
def queueRequest (s : State W) (r : Request) : Except Err (State W) :=
  if s.queue.length < env.maxQueued then .ok { s with queue := s.queue ++ [r] } else .error .queueFull

/-- Queue a request if one is active, else make it active.
Models `pallets/eth-bridge/src/request.rs:30-34,52-56`. -/
def enqueueOrSetUp (s : State W) (r : Request) : Except Err (State W) :=
  if s.active.isSome then queueRequest env s r else setUp env s r

/-- `publish`, i.e. `add_new_send_request`. On error the storage returned still has the consumed transaction id, as in
the code when the caller does not roll back. Models `pallets/eth-bridge/src/request.rs:7-37`,
`pallets/eth-bridge/src/tx.rs:139-143`, `pallets/eth-bridge/src/lib.rs:1193-1210`. -/
def publish (s : State W) (name : List UInt8) (params : List Param) (callerId : List UInt8) :
    State W × Except Err Nat :=
  if env.validUtf8 name = false then (s, .error .functionName)
  else if name = [] then (s, .error .emptyFunctionName)
  else
    let id := s.nextTxId
    let s1 := { s with nextTxId := wrapInc32 s.nextTxId }
    if name.length > 32 then (s1, .error .functionNameLimit)
    else if paramsFit params = false then (s1, .error .paramsLimit)
    else if callerId.length > 50 then (s1, .error .callerIdLength)
    else
      let r : Request := .send { txId := id, name := name, params := params, callerId := callerId }
      match enqueueOrSetUp env s1 r with
      | .ok s2 => ({ s2 with log := s2.log ++ [.accepted r] }, .ok id)
      | .error e => (s1, .error e)

/-- `generate_lower_proof`, i.e. `add_new_lower_proof_request`.
Models `pallets/eth-bridge/src/request.rs:39-59`, `pallets/eth-bridge/src/lib.rs:1211-1228`. -/
def generateLowerProof (s : State W) (lowerId params : Nat) (callerId : List UInt8) : State W × Except Err Unit :=
  if callerId.length > 50 then (s, .error .callerIdLength)
  else
    let r : Request := .lower { lowerId := lowerId, params := params, callerId := callerId }
    match enqueueOrSetUp env s r with
    | .ok s2 => ({ s2 with log := s2.log ++ [.accepted r] }, .ok ())
    | .error e => (s, .error e)

/-- Number of authors. -/
def nAuthors (s : State W) : Nat := s.avn.validators.length

/-- `util::has_enough_corroborations`; `len - 1` wraps at zero. Models `pallets/eth-bridge/src/util.rs:10-15`. -/
def enoughCorroborations (s : State W) (n : Nat) : Bool :=
  Avn.requiredFor ((nAuthors s + pow32 - 1) % pow32) ≤ n

/-- `request::has_enough_confirmations`. Models `pallets/eth-bridge/src/request.rs:94-103`,
`pallets/eth-bridge/src/util.rs:17-24`. -/
def enoughConfirmations (s : State W) (r : Request) (n : Nat) : Bool :=
  match r with
  | .send _ => Avn.requiredFor (nAuthors s) ≤ n + 1
  | .lower _ => Avn.requiredForSupermajority (nAuthors s) ≤ n

/-- `complete_lower_proof_request`: the proof handed over is the request's parameters and the confirmations.
Models `pallets/eth-bridge/src/request.rs:105-122`, `pallets/eth-bridge/src/eth.rs:189-199`. -/
def completeLower (s : State W) (r : LowerReq) (confs : List Nat) : State W :=
  processNext env { s with
    world := (env.onLower s.world r.lowerId r.callerId (some (r.params, confs))).1
    log := s.log ++ [.lowerResult r.lowerId r.callerId (some (r.params, confs))] }

/-- `ConfirmationsLimit`. Models `pallets/eth-bridge/src/lib.rs:136,147`. -/
def confirmationsLimit : Nat := 100

/-- `eth::verify_signature`. Models `pallets/eth-bridge/src/eth.rs:28-75`. -/
def verifySignature (s : State W) (msgHash author sig : Nat) : Bool :=
  Avn.isValidator s.avn.validators author && env.signer msgHash sig == some author

/-- The author is the sender assigned to an active send request. Models `pallets/eth-bridge/src/lib.rs:443-448`. -/
def isSender (req : Active) (author : Nat) : Bool :=
  match req.request, req.txData with
  | .send _, some d => author == d.sender
  | _, _ => false

/-- `add_confirmation`. Models `pallets/eth-bridge/src/lib.rs:428-476`. -/
def addConfirmation (s : State W) (requestId sig author : Nat) : Except Err (State W) :=
  match s.active with
  | none => .ok s
  | some req =>
    if req.request.idMatches requestId = false then .ok s
    else if enoughConfirmations s req.request req.confirmations.length then .ok s
    else if isSender req author then .ok s
    else if verifySignature env s req.msgHash author sig = false then .error .invalidEcdsa
    else if sig ∈ req.confirmations then .error .duplicateConfirmation
    else if req.confirmations.length ≥ confirmationsLimit then .error .confirmationLimit
    else
      let confs := req.confirmations ++ [sig]
      match req.request with
      | .lower r =>
        if enoughConfirmations s req.request confs.length then .ok (completeLower env s r confs)
        else .ok { s with active := some { req with confirmations := confs, lastUpdated := s.block } }
      | .send _ => .ok { s with active := some { req with confirmations := confs, lastUpdated := s.block } }

/-- `add_eth_tx_hash`. Models `pallets/eth-bridge/src/lib.rs:482-511`. -/
def addEthTxHash (s : State W) (txId hash author : Nat) : Except Err (State W) :=
  match s.active with
  | none => .ok s
  | some req =>
    if req.request.idMatches txId = false then .ok s
    else match req.txData with
      | none => .ok s
      | some d =>
        if d.ethTxHash ≠ 0 then .error .hashAlreadySet
        else if d.sender ≠ author then .error .hashMustBeSetBySender
        else .ok { s with active := some { req with txData := some { d with ethTxHash := hash }, lastUpdated := s.block } }

/-- `complete_transaction`; a failing notification aborts the call. Models `pallets/eth-bridge/src/tx.rs:10-63`. -/
def completeTransaction (s : State W) (r : SendReq) (d : TxData) (ok : Bool) : Except Err (State W) :=
  let n := env.onResult s.world r.txId r.callerId ok
  if n.2 = false then .error .notificationFailed
  else
    let hash := if ok && enoughCorroborations s d.invalidHash.length then 0 else d.ethTxHash
    let t : Settled := { name := r.name, params := d.params, sender := d.sender, ethTxHash := hash, succeeded := ok }
    .ok (processNext env { s with
      world := n.1
      settled := upd s.settled r.txId (some t)
      log := s.log ++ [.result r.txId r.callerId ok] })

/-- `finalize_state`: replay a failed transaction whose hash was invalid, else complete it.
`saturating_plus_one` on `u16`. Models `pallets/eth-bridge/src/tx.rs:66-80,126-137`. -/
def finalizeState (s : State W) (r : SendReq) (d : TxData) (ok : Bool) : Except Err (State W) :=
  if !ok && enoughCorroborations s d.invalidHash.length then setUpTx env s r (min (d.replay + 1) 65535)
  else completeTransaction env s r d ok

/-- Append the author to the list for the hash validity and to the list for the outcome.
Models `pallets/eth-bridge/src/lib.rs:543-563`. -/
def addCorr (d : TxData) (ok hashValid : Bool) (author : Nat) : TxData :=
  let d1 := if hashValid then { d with validHash := d.validHash ++ [author] }
    else { d with invalidHash := d.invalidHash ++ [author] }
  if ok then { d1 with success := d1.success ++ [author] } else { d1 with failure := d1.failure ++ [author] }

/-- `add_corroboration`. The accumulated lists are only written back when the outcome is not yet decided.
Models `pallets/eth-bridge/src/lib.rs:517-573`. -/
def addCorroboration (s : State W) (txId : Nat) (ok hashValid : Bool) (author replay : Nat) : Except Err (State W) :=
  match s.active with
  | none => .ok s
  | some req =>
    if req.request.idMatches txId = false then .ok s
    else match req.txData with
      | none => .ok s
      | some d =>
        if replay ≠ d.replay then .error .invalidCorroborationData
        else if author = d.sender then .error .ownTransaction
        else if author ∈ d.success ∨ author ∈ d.failure then .ok s
        else if (if hashValid then d.validHash else d.invalidHash).length ≥ confirmationsLimit then
          .error .corroborationLimit
        else
          if (if ok then d.success else d.failure).length ≥ confirmationsLimit then .error .corroborationLimit
          else
            let d2 := addCorr d ok hashValid author
            if enoughCorroborations s (if ok then d2.success else d2.failure).length then
              match req.request with
              | .send r => finalizeState env s r d2 ok
              | .lower _ => .error .invalidCorroborationData
            else .ok { s with active := some { req with txData := some d2, lastUpdated := s.block } }

/-- `remove_active_request_impl`. Models `pallets/eth-bridge/src/lib.rs:1355-1382`. -/
def removeActive (s : State W) : Except Err (State W) :=
  match s.active with
  | none => .error .noActiveRequest
  | some req => .ok (processNext env (notifyFailed env s req.request))

/-- `SetEthBridgeInstance`: an active send request is set up again from attempt zero; an active lower proof keeps its
message hash. Models `pallets/eth-bridge/src/lib.rs:757-771`. -/
def setInstance (s : State W) (valid : Bool) (instanceId : Nat) : Except Err (State W) :=
  if valid = false then .error .invalidInstance
  else
    let s1 := { s with instanceId := instanceId }
    match s.active with
    | some req =>
      match req.request with
      | .send r => setUpTx env s1 r 0
      | .lower _ => .ok s1
    | none => .ok s1

/-- Everything that can change this state. The author named in an unsigned call must be a current author
(`validate_unsigned`, `pallets/eth-bridge/src/lib.rs:1061-1190`). `publish`/`lowerProof` carry a flag: does the
calling pallet roll back on error? `external` is any other activity (time, authors, lifetime, rest of the runtime). -/
inductive Step (W : Type) where
  | publish (name : List UInt8) (params : List Param) (callerId : List UInt8) (rollback : Bool)
  | lowerProof (lowerId params : Nat) (callerId : List UInt8)
  | confirm (requestId sig author : Nat)
  | ethTxHash (txId hash author : Nat)
  | corroborate (txId : Nat) (ok hashValid : Bool) (author replay : Nat)
  | removeActive
  | setTxId (id : Nat)
  | setInstance (valid : Bool) (instanceId : Nat)
  | external (w : W) (avn : Avn.State) (now block lifetime : Nat)

/-- Failed extrinsics leave no trace. -/
def commit (s : State W) : Except Err (State W) → State W
  | .ok s' => s'
  | .error _ => s

/-- One step. -/
def step (s : State W) : Step W → State W
  | .publish name params caller rollback =>
    let r := publish env s name params caller
    match r.2 with
    | .ok _ => r.1
    | .error _ => if rollback then s else r.1
  | .lowerProof id params caller => (generateLowerProof env s id params caller).1
  | .confirm id sig a => if Avn.isValidator s.avn.validators a then commit s (addConfirmation env s id sig a) else s
  | .ethTxHash id h a => if Avn.isValidator s.avn.validators a then commit s (addEthTxHash s id h a) else s
  | .corroborate id ok hv a rep =>
    if Avn.isValidator s.avn.validators a then commit s (addCorroboration env s id ok hv a rep) else s
  | .removeActive => commit s (removeActive env s)
  | .setTxId id => { s with nextTxId := id }
  | .setInstance v i => commit s (setInstance env s v i)
  | .external w avn now block lifetime =>
    { s with world := w, avn := avn, now := now, block := block, lifetime := lifetime }

/-- A history. -/
def run (s : State W) (steps : List (Step W)) : State W := steps.foldl (step env) s

/-- A pallet with nothing requested yet. -/
def initial (w : W) (avn : Avn.State) (nextTxId : Nat) : State W where
  nextTxId := nextTxId
  lifetime := 1800
  queue := []
  active := none
  settled := fun _ => none
  avn := avn
  instanceId := 0
  now := 0
  block := 0
  world := w
  log := []

end Verif.BridgeTx
