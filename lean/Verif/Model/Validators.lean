import Verif.Model.Basic

/-!
# Model of `pallets/validators-manager`

Account ids and Ethereum public keys are opaque numbers. Staking, the session pallet, key decompression and the bridge's
acceptance of a request are inputs of the calls (Booleans). Counters are natural numbers: `TotalIngresses` is a `u64` and bridge
transaction ids a `u32`; neither wraps in the model. Only successful calls change the state (FRAME extrinsics are
transactional); `process_result` is called by the bridge either inside an extrinsic which fails with it
(`pallets/eth-bridge/src/tx.rs:10-20`), or, only to report a failure, with its error ignored
(`pallets/eth-bridge/src/request.rs:70-74`, `pallets/eth-bridge/src/lib.rs:1363-1367`). Events are kept in a ghost log.
-/

namespace Verif.Validators

/-- `ValidatorsActionStatus`. Models `pallets/validators-manager/src/lib.rs:350-360`. -/
inductive Status where
  | awaiting | confirmed | actioned
deriving DecidableEq, Repr

/-- `ValidatorsActionType` (`Slashed` and `Unknown` are never constructed).
Models `pallets/validators-manager/src/lib.rs:362-374`. -/
inductive Kind where
  | resignation | activation | registration
deriving DecidableEq, Repr

/-- An entry of `ValidatorActions` with its two keys. Models `pallets/validators-manager/src/lib.rs:194-204,399-404`. -/
structure Entry where
  account : Nat
  ingress : Nat
  status : Status
  tx : Nat
  kind : Kind
deriving DecidableEq, Repr

/-- Ghost log. `published`: a request was handed to the bridge; `answered`: the bridge's result for it was processed. -/
inductive Obs where
  | published (tx : Nat) (k : Kind) (account : Nat)
  | answered (tx : Nat) (succeeded : Bool)
deriving DecidableEq, Repr

/-- Storage. Models `pallets/validators-manager/src/lib.rs:189-227`; `nextTx` is the bridge's `NextTxId`. -/
structure State where
  validators : List Nat
  actions : List Entry
  keys : Nat → Option Nat
  rev : Nat → Option Nat
  ingress : Nat
  deposits : Nat → Option Nat
  txMap : Nat → Option (Nat × Nat)
  nextTx : Nat
  log : List Obs

/-- `Error`, reduced to the ones that occur. Models `pallets/validators-manager/src/lib.rs:106-137`. -/
inductive Err where
  | noValidators | alreadyExists | ethKeyAlreadyExists | maximumReached | noSessionKeys | actionInProgress | staking
  | invalidKey | bridge | minimumReached | notFound | actionDataNotFound
deriving DecidableEq, Repr

/-- `MaximumValidatorsBound`. Models `primitives/avn-common/src/lib.rs:72`. -/
def maxValidators : Nat := 256

/-- `action_state_is_active`. Models `pallets/validators-manager/src/lib.rs:506-511`. -/
def isActive : Status → Bool
  | .awaiting | .confirmed => true
  | .actioned => false

/-- `has_any_active_action`. Models `pallets/validators-manager/src/lib.rs:499-503`. -/
def hasActive (s : State) : Bool := s.actions.any fun e => isActive e.status

/-- `ValidatorActions::get`. -/
def getAction (s : State) (a i : Nat) : Option Entry := s.actions.find? fun e => e.account == a && e.ingress == i

/-- The entries other than `(a, i)`: `ValidatorActions::remove`. -/
def dropAction (l : List Entry) (a i : Nat) : List Entry := l.filter fun e => !(e.account == a && e.ingress == i)

/-- `ValidatorActions::mutate` of an existing entry. -/
def setAction (l : List Entry) (a i : Nat) (st : Status) (k : Kind) : List Entry :=
  l.map fun e => if e.account == a && e.ingress == i then { e with status := st, kind := k } else e

/-- `send_..._to_t1` after the bridge accepted: new ingress counter, action entry and transaction mapping.
Models `pallets/validators-manager/src/lib.rs:620-642,680-702`. -/
def recordAction (s : State) (a : Nat) (k : Kind) : State :=
  { s with
    ingress := s.ingress + 1
    actions := { account := a, ingress := s.ingress + 1, status := .awaiting, tx := s.nextTx, kind := k } ::
      dropAction s.actions a (s.ingress + 1)
    txMap := upd s.txMap s.nextTx (some (a, s.ingress + 1))
    nextTx := s.nextTx + 1
    log := s.log ++ [.published s.nextTx k a] }

/-- `add_collator`. `sessionKeys`: the account has session keys; `stakingOk`: not a candidate, deposit and balance suffice; `keyOk`:
the key decompresses; `bridgeOk`: `publish` succeeds. The deposit defaults to the minimum stake.
Models `pallets/validators-manager/src/lib.rs:269-298,447-479,513-534,585-643`. -/
def addCollator (s : State) (a k deposit : Nat) (sessionKeys stakingOk keyOk bridgeOk : Bool) : State × Option Err :=
  if s.validators = [] then (s, some .noValidators)
  else if a ∈ s.validators then (s, some .alreadyExists)
  else if (s.keys k).isSome then (s, some .ethKeyAlreadyExists)
  else if maxValidators ≤ s.validators.length then (s, some .maximumReached)
  else if !sessionKeys then (s, some .noSessionKeys)
  else if hasActive s then (s, some .actionInProgress)
  else if !stakingOk then (s, some .staking)
  else if !keyOk then (s, some .invalidKey)
  else if !bridgeOk then (s, some .bridge)
  else
    (recordAction { s with deposits := upd s.deposits a (some deposit), keys := upd s.keys k (some a), rev := upd s.rev a (some k) }
      a .registration, none)

/-- `remove_validator`. Models `pallets/validators-manager/src/lib.rs:303-316,481-496,646-703`. -/
def removeValidator (minV : Nat) (s : State) (a : Nat) (keyOk bridgeOk : Bool) : State × Option Err :=
  if s.validators.length ≤ minV then (s, some .minimumReached)
  else if a ∉ s.validators then (s, some .notFound)
  else if hasActive s then (s, some .actionInProgress)
  else
    match s.rev a with
    | none => (s, some .notFound)
    | some _ =>
      if !keyOk then (s, some .invalidKey)
      else if !bridgeOk then (s, some .bridge)
      else (recordAction s a .resignation, none)

/-- `rotate_validator_ethereum_key`. Models `pallets/validators-manager/src/lib.rs:321-346`. -/
def rotateKey (s : State) (a old new : Nat) : State × Option Err :=
  if (s.keys new).isSome then (s, some .ethKeyAlreadyExists)
  else if old = new then (s, some .ethKeyAlreadyExists)
  else
    match s.keys old with
    | none => (s, some .notFound)
    | some b =>
      if b ≠ a then (s, some .notFound)
      else ({ s with keys := upd (upd s.keys old none) new (some b), rev := upd s.rev b (some new) }, none)

/-- `remove_ethereum_public_key_if_required`. Models `pallets/validators-manager/src/lib.rs:440-445`. -/
def removeKey (s : State) (a : Nat) : State :=
  match s.rev a with
  | none => s
  | some k => { s with keys := upd s.keys k none, rev := upd s.rev a none }

/-- `cleanup_registration_storage`. Models `pallets/validators-manager/src/lib.rs:826-844`. -/
def cleanupRegistration (s : State) (a i : Nat) (cleanupDeposit : Bool) : State :=
  let s := removeKey s a
  let s := if cleanupDeposit then { s with deposits := upd s.deposits a none } else s
  { s with actions := dropAction s.actions a i }

/-- `complete_validator_registration`: append to the list, join staking (`stakingOk`), go to activation. On failure the registration
is cleaned up and an error returned (which the bridge turns into a rollback of everything).
Models `pallets/validators-manager/src/lib.rs:705-777`. -/
def completeRegistration (s : State) (a i : Nat) (stakingOk : Bool) : State × Option Err :=
  if maxValidators ≤ s.validators.length then (cleanupRegistration s a i false, some .maximumReached)
  else
    let s := { s with validators := s.validators ++ [a], deposits := upd s.deposits a none }
    if !stakingOk then (cleanupRegistration s a i false, some .staking)
    else ({ s with actions := setAction s.actions a i .actioned .activation }, none)

/-- `complete_validator_deregistration`: schedule the exit from staking (`stakingOk`), drop the account from the list, drop its keys.
Models `pallets/validators-manager/src/lib.rs:779-824,862-876`. -/
def completeDeregistration (s : State) (a i : Nat) (stakingOk : Bool) : State × Option Err :=
  if !stakingOk then ({ s with actions := dropAction s.actions a i }, some .staking)
  else
    let s := removeKey { s with validators := s.validators.filter fun v => v != a } a
    ({ s with actions := s.actions.map fun e =>
        if e.account == a && e.ingress == i then { e with status := .actioned } else e }, none)

/-- `process_result` with `rollback_failed_validator_action`. `mine`: the caller id is this pallet's.
Models `pallets/validators-manager/src/lib.rs:878-938`. -/
def processResult (s : State) (tx : Nat) (mine succeeded stakingOk : Bool) : State × Option Err :=
  if !mine then (s, none)
  else
    match s.txMap tx with
    | none => (s, none)
    | some (a, i) =>
      let s := { s with txMap := upd s.txMap tx none }
      match getAction s a i with
      | none => (s, some .actionDataNotFound)
      | some e =>
        let s := { s with log := s.log ++ [.answered tx succeeded] }
        if !succeeded then
          if e.kind = .registration then (cleanupRegistration s a i true, none)
          else ({ s with actions := dropAction s.actions a i }, none)
        else if e.kind = .registration then completeRegistration s a i stakingOk
        else if e.kind = .resignation then completeDeregistration s a i stakingOk
        else (s, none)

/-- `on_new_session`: visit the action entries in some order (`visit`); `exitOk` says for which accounts `exit_from_staking` succeeds.
A missing key of an activated account stops the loop.
Models `pallets/validators-manager/src/lib.rs:958-1014`. -/
def newSession (active disabled : List Nat) (exitOk : Nat → Bool) : List (Nat × Nat) → State → State
  | [], s => s
  | (a, i) :: rest, s =>
    match getAction s a i with
    | none => newSession active disabled exitOk rest s
    | some e =>
      if e.status = .actioned ∧ e.kind = .resignation then
        if ¬ (a ∈ active ∨ a ∈ disabled) ∧ exitOk a = true then
          newSession active disabled exitOk rest { s with actions := setAction s.actions a i .confirmed e.kind }
        else newSession active disabled exitOk rest s
      else if e.status = .actioned ∧ e.kind = .activation then
        if a ∈ active then
          let s := { s with actions := setAction s.actions a i .confirmed e.kind }
          match s.rev a with
          | some _ => newSession active disabled exitOk rest s
          | none => s
        else newSession active disabled exitOk rest s
      else if e.status = .confirmed then
        newSession active disabled exitOk rest { s with actions := dropAction s.actions a i }
      else newSession active disabled exitOk rest s

/-- What can happen. `bridgeResult`: `complete_transaction` of the bridge, which fails (and is rolled back) when `process_result`
fails. `bridgeDropped`: a request which the bridge could not set up or which an administrator removed; the result is always a
failure and errors are ignored. `otherPublish`: another pallet uses the bridge. -/
inductive Step where
  | add (a k deposit : Nat) (sessionKeys stakingOk keyOk bridgeOk : Bool)
  | remove (a : Nat) (keyOk bridgeOk : Bool)
  | rotate (a old new : Nat)
  | otherPublish
  | bridgeResult (tx : Nat) (mine succeeded stakingOk : Bool)
  | bridgeDropped (tx : Nat) (mine : Bool)
  | session (active disabled : List Nat) (exitOk : Nat → Bool) (visit : List (Nat × Nat))

/-- A transactional call: the state changes only on success. -/
def commit (s : State) (r : State × Option Err) : State :=
  match r with
  | (s', none) => s'
  | (_, some _) => s

/-- One step. `minV` is `MinimumValidatorCount`. -/
def step (minV : Nat) (s : State) : Step → State
  | .add a k d sk st ko bo => commit s (addCollator s a k d sk st ko bo)
  | .remove a ko bo => commit s (removeValidator minV s a ko bo)
  | .rotate a o n => commit s (rotateKey s a o n)
  | .otherPublish => { s with nextTx := s.nextTx + 1 }
  | .bridgeResult tx m ok st => commit s (processResult s tx m ok st)
  | .bridgeDropped tx m => (processResult s tx m false false).1
  | .session act dis ex vis => newSession act dis ex vis s

/-- A history. -/
def run (minV : Nat) (s : State) (steps : List Step) : State := steps.foldl (step minV) s

/-- The genesis state: validators with their keys. Models `pallets/validators-manager/src/lib.rs:242-260`. -/
def genesis (vs : List (Nat × Nat)) : State where
  validators := vs.map Prod.fst
  actions := []
  keys := fun k => (vs.find? fun v => v.2 == k).map Prod.fst
  rev := fun a => (vs.find? fun v => v.1 == a).map Prod.snd
  ingress := 0
  deposits := fun _ => none
  txMap := fun _ => none
  nextTx := 0
  log := []

end Verif.Validators
