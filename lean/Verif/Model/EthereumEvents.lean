import Verif.Model.Avn
import Verif.Model.EventTypes

/-!
# Model of `pallets/ethereum-events`: the check / challenge / process pipeline

Accounts, transaction hashes and event payloads are numbers. Whether a payload is well formed (`is_valid`) and whether a
validator's signature verifies are inputs of the transactions. The set of processed transactions is kept by the bridge
pallet (runtime configuration `ProcessedEventsChecker = EthBridge`); the bridge may add to it at any time. The receiver of
accepted events (`ProcessedEventHandler`) is an arbitrary function on an arbitrary rest of the runtime `W`.
Offences are log entries. Off-chain workers are not modelled: their transactions are ordinary steps.
-/

namespace Verif.EthEvents

open Verif Verif.Events

/-- `EthEventId`. Models `primitives/avn-common/src/event_types.rs` `EthEventId`. -/
structure EventId where
  signature : Nat
  txHash : Nat
deriving DecidableEq, Repr

/-- `EthEvent`. -/
structure EthEvent where
  id : EventId
  payload : Nat
deriving DecidableEq, Repr

/-- `CheckResult`. Models `primitives/avn-common/src/event_types.rs` `CheckResult`. -/
inductive CheckResult where
  | unknown | insufficientConfirmations | invalid | httpErrorCheckingEvent | ok
deriving DecidableEq, Repr

/-- `EthEventCheckResult`. Models `primitives/avn-common/src/event_types.rs:918-926`. -/
structure Check where
  event : EthEvent
  result : CheckResult
  checkedBy : Nat
  checkedAt : Nat
  readyAfter : Nat
  minVotes : Nat
deriving DecidableEq, Repr

/-- An entry of `UncheckedEvents`. -/
structure Unchecked where
  id : EventId
  counter : Nat
  block : Nat
deriving DecidableEq, Repr

/-- An entry of `EventsPendingChallenge`. -/
structure Pending where
  check : Check
  counter : Nat
  block : Nat
deriving DecidableEq, Repr

/-- The event id an entry of `EventsPendingChallenge` is about. -/
def Pending.id (p : Pending) : EventId := p.check.event.id

/-- Log: the pallet's events, the offences, and the call to the handler. Each is stamped with the block it happened
in. `validated` carries, besides the fields of `EventValidated`, the payload, the counter, the challenge period in
force and the minimum number of votes. Models `pallets/ethereum-events/src/lib.rs:236-300`. -/
inductive Obs where
  | added (id : EventId) (counter by_ : Nat)
  | validated (e : EthEvent) (r : CheckResult) (by_ counter period minVotes : Nat)
  | challenged (id : EventId) (by_ : Nat)
  | processed (id : EventId) (by_ : Nat) (outcome : Bool)
  | challengeSucceeded (id : EventId) (r : CheckResult)
  | offence (who : List Nat)
  | handled (e : EthEvent)
  | accepted (id : EventId)
  | rejected (id : EventId) (r : CheckResult) (succ : Bool)
  | periodSet (p : Nat)
deriving DecidableEq, Repr

/-- Errors. Models `pallets/ethereum-events/src/lib.rs:302-330`. -/
inductive Err where
  | invalidKey | overflow | missingEventToCheck | pendingNotFound | invalidEventToProcess | invalidEventToChallenge
  | challengingOwnEvent | duplicateChallenge | malformedHash | senderIsNotSigner | unauthorized
  | errorAddingLog | duplicateEvent | uncheckedOverflow | invalidPeriod | invalidTransaction
deriving DecidableEq, Repr

/-- Storage. `processed` is the bridge's map of processed transactions (with the `accepted` flag); `filter` is the
runtime's `ProcessedEventsHandler`. Models `pallets/ethereum-events/src/lib.rs:332-400`. -/
structure State (W : Type) where
  ingress : Nat
  unchecked : List Unchecked
  pending : List Pending
  processed : Nat → Option Bool
  challenges : EventId → List Nat
  quorumFactor : Nat
  period : Nat
  nonces : Nat → Nat
  block : Nat
  validators : List Avn.Validator
  filter : List ValidEvent
  world : W
  log : List (Nat × Obs)

/-- Bounds and minimum. Models `pallets/ethereum-events/src/lib.rs:78,140-142`. -/
def maxUnchecked : Nat := 500
/-- See `maxUnchecked`. -/
def maxPending : Nat := 50
/-- See `maxUnchecked`. -/
def maxChallenges : Nat := 50
/-- See `maxUnchecked`. -/
def minPeriod : Nat := 60

variable {W : Type}

/-- Deposit events in the current block. -/
def emit (s : State W) (es : List Obs) : State W := { s with log := s.log ++ es.map (fun e => (s.block, e)) }

/-- `try_push` on a bounded vector whose failure is only logged. -/
def pushBounded {α : Type} (bound : Nat) (l : List α) (a : α) : List α :=
  if l.length < bound then l ++ [a] else l

/-- `event_exists_in_system`; the processed set is keyed by transaction hash.
Models `pallets/ethereum-events/src/lib.rs:1513-1519` and `pallets/eth-bridge/src/lib.rs:1424-1426`. -/
def existsInSystem (s : State W) (id : EventId) : Bool :=
  (s.processed id.txHash).isSome || s.unchecked.any (fun u => u.id == id) || s.pending.any (fun p => p.id == id)

/-- `add_event`, with `get_next_ingress_counter` (wrapping `u64`).
Models `pallets/ethereum-events/src/lib.rs:1521-1555,1633-1637`. -/
def addEvent (s : State W) (ty : ValidEvent) (tx sender : Nat) : Except Err (State W) :=
  if s.filter.contains ty = false then .error .errorAddingLog
  else if isPrimary ty = false then .error .invalidEventToProcess
  else if existsInSystem s ⟨signature ty, tx⟩ = true then .error .duplicateEvent
  else if s.unchecked.length < maxUnchecked then
    .ok (emit
      { s with
        ingress := wrapInc64 s.ingress
        unchecked := s.unchecked ++ [⟨⟨signature ty, tx⟩, wrapInc64 s.ingress, s.block⟩] }
      [.added ⟨signature ty, tx⟩ (wrapInc64 s.ingress) sender])
  else .error .uncheckedOverflow

/-- `add_ethereum_log`. Models `pallets/ethereum-events/src/lib.rs:730-741`. -/
def addLog (s : State W) (ty : ValidEvent) (tx sender : Nat) : Except Err (State W) :=
  if tx = 0 then .error .malformedHash else addEvent s ty tx sender

/-- `signed_add_ethereum_log`; `sigOk nonce` says the proof verifies for that nonce.
Models `pallets/ethereum-events/src/lib.rs:748-775`. -/
def signedAddLog (s : State W) (ty : ValidEvent) (tx sender signer : Nat) (sigOk : Nat → Bool) :
    Except Err (State W) :=
  if sender ≠ signer then .error .senderIsNotSigner
  else if tx = 0 then .error .malformedHash
  else if sigOk (s.nonces sender) = false then .error .unauthorized
  else addEvent { s with nonces := upd s.nonces sender (wrapInc64 (s.nonces sender)) } ty tx sender

/-- `validate_unsigned` for `submit_checkevent_result`. `named` is the account of the `validator` argument,
`sigOk` says the signature verifies against the key it carries.
Models `pallets/ethereum-events/src/lib.rs:858-903`. -/
def validSubmit (s : State W) (c : Check) (counter named : Nat) (dataOk sigOk : Bool) : Bool :=
  s.unchecked.any (fun u => u.id == c.event.id && u.counter == counter) && dataOk &&
    (match Avn.primaryForBlock s.validators c.checkedAt with
     | .ok v => v == c.checkedBy
     | .error _ => false) &&
    named == c.checkedBy && Avn.isValidator s.validators named && sigOk

/-- `submit_checkevent_result`. `events.remove(event_index)` removes the first match; a full pending list is only
logged and the event is dropped. Models `pallets/ethereum-events/src/lib.rs:475-522`. -/
def submitCheck (s : State W) (c : Check) (counter : Nat) : Except Err (State W) :=
  if Avn.isValidator s.validators c.checkedBy = false then .error .invalidKey
  else if s.unchecked.any (fun u => u.id == c.event.id && u.counter == counter) = false then
    .error .missingEventToCheck
  else if s.block + s.period < pow32 then
    .ok (emit
      { s with
        pending := pushBounded maxPending s.pending
          ⟨{ c with readyAfter := s.block + s.period, minVotes := s.validators.length / s.quorumFactor }, counter, s.block⟩
        unchecked := s.unchecked.eraseP (fun u => u.id == c.event.id && u.counter == counter) }
      [.validated c.event c.result c.checkedBy counter s.period (s.validators.length / s.quorumFactor)])
  else .error .overflow

/-- `is_challenge_successful`. Models `pallets/ethereum-events/src/lib.rs:1049-1059`. -/
def challengeSuccessful (s : State W) (c : Check) : Bool :=
  decide (max c.minVotes (s.validators.length / s.quorumFactor) < (s.challenges c.event.id).length)

/-- `get_pending_event_index`: the last entry for this event. Models `pallets/ethereum-events/src/lib.rs:1061-1069`. -/
def lastPending (l : List Pending) (id : EventId) : Option Pending := l.reverse.find? (fun p => p.id == id)

/-- Removal of the entry found by `lastPending`. -/
def removeLast (l : List Pending) (id : EventId) : List Pending := (l.reverse.eraseP (fun p => p.id == id)).reverse

/-- `add_processed_event(id, true)` of the bridge, whose error is only logged.
Models `pallets/eth-bridge/src/lib.rs:1428-1446`. -/
def markProcessed (processed : Nat → Option Bool) (id : EventId) : Nat → Option Bool :=
  if processed id.txHash = some true then processed
  else if legacyLiftSignatures.contains id.signature || (tryFrom id.signature).isSome then
    upd processed id.txHash (some true)
  else processed

/-- `validate_unsigned` for `process_event`. Models `pallets/ethereum-events/src/lib.rs:904-938`. -/
def validProcess (s : State W) (id : EventId) (counter named : Nat) (sigOk : Bool) : Bool :=
  s.pending.any (fun p => p.id == id && p.counter == counter) && Avn.isValidator s.validators named && sigOk

/-- The part of `process_event` up to the offence reports: marking, removal, events, clearing of challenges.
Models `pallets/ethereum-events/src/lib.rs:566-612`. -/
def settle (s : State W) (p : Pending) (id : EventId) (named : Nat) : State W :=
  emit
    { s with
      processed :=
        if p.check.result = .invalid ∨ (challengeSuccessful s p.check = true ∧ s.processed id.txHash = none)
        then s.processed else markProcessed s.processed id
      pending := removeLast s.pending id
      challenges := if challengeSuccessful s p.check = true then s.challenges else upd s.challenges id [] }
    ([.processed id named ((s.processed id.txHash).isNone && !challengeSuccessful s p.check)] ++
      if challengeSuccessful s p.check = true then [.challengeSucceeded id p.check.result, .offence [p.check.checkedBy]]
      else if s.challenges id = [] then [] else [.offence (s.challenges id)])

/-- The call of the handler, whose outcome decides between the two final events.
Models `pallets/ethereum-events/src/lib.rs:614-638`. -/
def deliver (handler : EthEvent → W → W × Bool) (s : State W) (p : Pending) (id : EventId) : State W :=
  emit { s with world := (handler p.check.event s.world).1 }
    [.handled p.check.event,
     if (handler p.check.event s.world).2 = true then .accepted id else .rejected id p.check.result false]

/-- `process_event`. Models `pallets/ethereum-events/src/lib.rs:535-655`. -/
def processEvent (handler : EthEvent → W → W × Bool) (s : State W) (id : EventId) (named : Nat) : Except Err (State W) :=
  if Avn.isValidator s.validators named = false then .error .invalidKey
  else match lastPending s.pending id with
    | none => .error .pendingNotFound
    | some p =>
      if s.block ≤ p.check.readyAfter then .error .invalidEventToProcess
      else if p.check.result = .ok ∧ challengeSuccessful s p.check = false ∧ s.processed id.txHash = none then
        .ok (deliver handler (settle s p id named) p id)
      else .ok (emit (settle s p id named) [.rejected id p.check.result (challengeSuccessful s p.check)])

/-- `validate_unsigned` for `challenge_event`. Models `pallets/ethereum-events/src/lib.rs:939-975`. -/
def validChallenge (s : State W) (id : EventId) (by_ counter named : Nat) (sigOk : Bool) : Bool :=
  s.pending.any (fun p => p.id == id && p.counter == counter) && named == by_ &&
    Avn.isValidator s.validators named && sigOk

/-- `challenge_event`. `contains_key` and the insertion of a one-element list differ from pushing to a possibly empty
list only in storage presence, which nothing else observes. Models `pallets/ethereum-events/src/lib.rs:662-720`. -/
def challengeEvent (s : State W) (id : EventId) (by_ counter : Nat) : Except Err (State W) :=
  if Avn.isValidator s.validators by_ = false then .error .invalidKey
  else match s.pending.reverse.find? (fun p => p.id == id && p.counter == counter) with
    | none => .error .invalidEventToChallenge
    | some p =>
      if p.check.checkedBy = by_ then .error .challengingOwnEvent
      else if by_ ∈ s.challenges id then .error .duplicateChallenge
      else .ok (emit { s with challenges := upd s.challenges id (pushBounded maxChallenges (s.challenges id) by_) }
            [.challenged id by_])

/-- `set_event_challenge_period`. Models `pallets/ethereum-events/src/lib.rs:792-806`. -/
def setPeriod (s : State W) (p : Nat) : Except Err (State W) :=
  if p < minPeriod then .error .invalidPeriod else .ok (emit { s with period := p } [.periodSet p])

/-- Everything that can change this state. `bridge` is the bridge recording a processed transaction on its own,
which never removes one and never changes an accepted one; `environment` is the rest of the chain. -/
inductive Step (W : Type) where
  | addLog (ty : ValidEvent) (tx sender : Nat)
  | signedAddLog (ty : ValidEvent) (tx sender signer : Nat) (sigOk : Nat → Bool)
  | submit (c : Check) (counter named : Nat) (dataOk sigOk : Bool)
  | process (id : EventId) (counter named : Nat) (sigOk : Bool)
  | challenge (id : EventId) (by_ counter named : Nat) (sigOk : Bool)
  | setPeriod (p : Nat)
  | bridge (tx : Nat) (accepted : Bool)
  | environment (block : Nat) (validators : List Avn.Validator) (world : W)

/-- A failed call leaves no trace (extrinsics are transactional). -/
def commit (s : State W) : Except Err (State W) → State W
  | .ok s' => s'
  | .error _ => s

/-- One step: unsigned transactions must pass `validate_unsigned` first. -/
def step (handler : EthEvent → W → W × Bool) (s : State W) : Step W → State W
  | .addLog ty tx a => commit s (addLog s ty tx a)
  | .signedAddLog ty tx a g f => commit s (signedAddLog s ty tx a g f)
  | .submit c k n d g => if validSubmit s c k n d g = true then commit s (submitCheck s c k) else s
  | .process id k n g => if validProcess s id k n g = true then commit s (processEvent handler s id n) else s
  | .challenge id a k n g => if validChallenge s id a k n g = true then commit s (challengeEvent s id a k) else s
  | .setPeriod p => commit s (setPeriod s p)
  | .bridge tx acc => if s.processed tx = some true then s else { s with processed := upd s.processed tx (some acc) }
  | .environment b vs w => { s with block := b, validators := vs, world := w }

/-- A history. -/
def run (handler : EthEvent → W → W × Bool) (s : State W) (steps : List (Step W)) : State W :=
  steps.foldl (step handler) s

/-- Genesis entries of the unchecked queue: one lift per hash, counters from one.
Models `pallets/ethereum-events/src/lib.rs:444-466`. -/
def genesisQueue : Nat → List Nat → List Unchecked
  | _, [] => []
  | k, h :: hs => ⟨⟨signature .lifted, h⟩, k + 1, 0⟩ :: genesisQueue (k + 1) hs

/-- `GenesisConfig::build`. Models `pallets/ethereum-events/src/lib.rs:424-467`. -/
def genesis (quorumFactor period : Nat) (lifts : List Nat) (processed : Nat → Option Bool)
    (validators : List Avn.Validator) (filter : List ValidEvent) (world : W) : State W where
  ingress := lifts.length
  unchecked := genesisQueue 0 lifts
  pending := []
  processed := processed
  challenges := fun _ => []
  quorumFactor := quorumFactor
  period := period
  nonces := fun _ => 0
  block := 0
  validators := validators
  filter := filter
  world := world
  log := []

end Verif.EthEvents
