import Verif.Model.Basic

/-!
# Model of `pallets/authors-manager`

Account ids and Ethereum public keys are opaque numbers. The session pallet, key decompression and the bridge's acceptance of a request are
inputs of the calls (Booleans). Counters do not wrap. Only successful calls change the state; `process_result` is called by the bridge either inside an
extrinsic which fails with it, or, only to report a failure, with its error ignored (as in `Model/Validators.lean`). The map from keys to
accounts is a list in iteration order; where a new key lands in that order is an input.
-/

namespace Verif.Authors

/-- `AuthorsActionStatus`. Models `pallets/authors-manager/src/lib.rs:356-366`. -/
inductive Status where
  | awaiting | confirmed | actioned
deriving DecidableEq, Repr

/-- `AuthorsActionType` (`Slashed` and `Unknown` are never constructed). Models `pallets/authors-manager/src/lib.rs:336-348`. -/
inductive Kind where
  | resignation | activation | registration
deriving DecidableEq, Repr

/-- An entry of `AuthorActions` with its two keys. Models `pallets/authors-manager/src/lib.rs:195-205,374-379`. -/
structure Entry where
  account : Nat
  ingress : Nat
  status : Status
  tx : Nat
  kind : Kind
deriving DecidableEq, Repr

/-- Ghost log. `published`: a request about an account, naming an Ethereum key, was handed to the bridge; `answered`: the bridge's result for
it was processed. -/
inductive Obs where
  | published (tx : Nat) (k : Kind) (account key : Nat)
  | answered (tx : Nat) (succeeded : Bool)
deriving DecidableEq, Repr

/-- Storage. Models `pallets/authors-manager/src/lib.rs:190-225`; `nextTx` is the bridge's `NextTxId`. -/
structure State where
  authors : List Nat
  actions : List Entry
  keys : List (Nat × Nat)
  rev : Nat → Option Nat
  ingress : Nat
  txMap : Nat → Option (Nat × Nat)
  nextTx : Nat
  log : List Obs

/-- `Error`, reduced to the ones that occur. Models `pallets/authors-manager/src/lib.rs:140-188`. -/
inductive Err where
  | noAuthors | alreadyExists | ethKeyAlreadyExists | maximumReached | noSessionKeys | actionInProgress
  | invalidKey | bridge | minimumReached | notFound | actionDataNotFound | convert
deriving DecidableEq, Repr

/-- `MaximumAuthorsBound`. Models `primitives/avn-common/src/lib.rs:72`. -/
def maxAuthors : Nat := 256

/-- `action_state_is_active`. Models `pallets/authors-manager/src/lib.rs:493-496`. -/
def isActive : Status → Bool
  | .awaiting | .confirmed => true
  | .actioned => false

/-- `has_any_active_action`. Models `pallets/authors-manager/src/lib.rs:486-491`. -/
def hasActive (s : State) : Bool := s.actions.any fun e => isActive e.status

/-- `EthereumPublicKeys::get`. Models `pallets/authors-manager/src/lib.rs:207-210`. -/
def keyOwner (l : List (Nat × Nat)) (k : Nat) : Option Nat := (l.find? fun x => x.1 == k).map Prod.snd

/-- `EthereumPublicKeys::remove`. -/
def dropKey (l : List (Nat × Nat)) (k : Nat) : List (Nat × Nat) := l.filter fun x => x.1 != k

/-- `EthereumPublicKeys::insert`, the key coming at position `pos` of the iteration order unless it is there already. -/
def putKey (l : List (Nat × Nat)) (pos k a : Nat) : List (Nat × Nat) :=
  (dropKey l k).take pos ++ (k, a) :: (dropKey l k).drop pos

/-- `AuthorActions::get`. -/
def getAction (s : State) (a i : Nat) : Option Entry := s.actions.find? fun e => e.account == a && e.ingress == i

/-- The entries other than `(a, i)`: `AuthorActions::remove`. -/
def dropAction (l : List Entry) (a i : Nat) : List Entry := l.filter fun e => !(e.account == a && e.ingress == i)

/-- `AuthorActions::mutate` of an existing entry. -/
def setAction (l : List Entry) (a i : Nat) (st : Status) (k : Kind) : List Entry :=
  l.map fun e => if e.account == a && e.ingress == i then { e with status := st, kind := k } else e

/-- `send_..._to_t1` after the bridge accepted. Models `pallets/authors-manager/src/lib.rs:534-556,594-616`. -/
def recordAction (s : State) (a k : Nat) (kind : Kind) : State :=
  { s with
    ingress := s.ingress + 1
    actions := { account := a, ingress := s.ingress + 1, status := .awaiting, tx := s.nextTx, kind := kind } ::
      dropAction s.actions a (s.ingress + 1)
    txMap := upd s.txMap s.nextTx (some (a, s.ingress + 1))
    nextTx := s.nextTx + 1
    log := s.log ++ [.published s.nextTx kind a k] }

/-- `add_author`. `sessionKeys`: the account converts and has session keys; `keyOk`: the key decompresses; `bridgeOk`: `publish` succeeds.
Models `pallets/authors-manager/src/lib.rs:256-272,436-467,498-557`. -/
def addAuthor (s : State) (a k pos : Nat) (sessionKeys keyOk bridgeOk : Bool) : State × Option Err :=
  if s.authors = [] then (s, some .noAuthors)
  else if a ∈ s.authors then (s, some .alreadyExists)
  else if (keyOwner s.keys k).isSome then (s, some .ethKeyAlreadyExists)
  else if maxAuthors ≤ s.authors.length then (s, some .maximumReached)
  else if !sessionKeys then (s, some .noSessionKeys)
  else if hasActive s then (s, some .actionInProgress)
  else if !keyOk then (s, some .invalidKey)
  else if !bridgeOk then (s, some .bridge)
  else (recordAction { s with keys := putKey s.keys pos k a, rev := upd s.rev a (some k) } a k .registration, none)

/-- `remove_author`. Models `pallets/authors-manager/src/lib.rs:274-290,469-484,559-617`. -/
def removeAuthor (minA : Nat) (s : State) (a : Nat) (keyOk bridgeOk : Bool) : State × Option Err :=
  if s.authors.length ≤ minA then (s, some .minimumReached)
  else if a ∉ s.authors then (s, some .notFound)
  else if hasActive s then (s, some .actionInProgress)
  else
    match s.rev a with
    | none => (s, some .notFound)
    | some k =>
      if !keyOk then (s, some .invalidKey)
      else if !bridgeOk then (s, some .bridge)
      else (recordAction s a k .resignation, none)

/-- `rotate_author_ethereum_key`: only the map from keys to accounts is changed. Models `pallets/authors-manager/src/lib.rs:292-318`. -/
def rotateKey (s : State) (a old new pos : Nat) : State × Option Err :=
  if (keyOwner s.keys new).isSome then (s, some .ethKeyAlreadyExists)
  else if old = new then (s, some .ethKeyAlreadyExists)
  else
    match keyOwner s.keys old with
    | none => (s, some .notFound)
    | some b =>
      if b ≠ a then (s, some .notFound)
      else ({ s with keys := putKey (dropKey s.keys old) pos new b }, none)

/-- `remove_ethereum_public_key_if_required`: the first key of the account in iteration order.
Models `pallets/authors-manager/src/lib.rs:422-434`. -/
def removeKey (s : State) (a : Nat) : State :=
  match s.keys.find? fun x => x.2 == a with
  | none => s
  | some x => { s with keys := dropKey s.keys x.1 }

/-- `cleanup_registration_storage`. Models `pallets/authors-manager/src/lib.rs:641-650`. -/
def cleanupRegistration (s : State) (a i : Nat) : State :=
  let s := match s.rev a with
    | none => s
    | some k => { s with keys := dropKey s.keys k, rev := upd s.rev a none }
  { s with actions := dropAction s.actions a i }

/-- `complete_author_registration`. `idOk`: the account converts to a validator id. Models `pallets/authors-manager/src/lib.rs:652-687`. -/
def completeRegistration (s : State) (a i : Nat) (idOk : Bool) : State × Option Err :=
  if maxAuthors ≤ s.authors.length then (cleanupRegistration s a i, some .maximumReached)
  else
    let s := { s with authors := s.authors ++ [a] }
    if !idOk then (s, some .convert)
    else ({ s with actions := setAction s.actions a i .actioned .activation }, none)

/-- `complete_author_deregistration`: the entry in `AccountIdToEthereumKeys` stays. Models `pallets/authors-manager/src/lib.rs:689-712`. -/
def completeDeregistration (s : State) (a i : Nat) : State × Option Err :=
  let s := removeKey { s with authors := s.authors.filter fun v => v != a } a
  ({ s with actions := s.actions.map fun e => if e.account == a && e.ingress == i then { e with status := .actioned } else e }, none)

/-- `process_result` with `rollback_failed_author_action`. `mine`: the caller id is this pallet's.
Models `pallets/authors-manager/src/lib.rs:619-639,841-873`. -/
def processResult (s : State) (tx : Nat) (mine succeeded idOk : Bool) : State × Option Err :=
  if !mine then (s, none)
  else
    match s.txMap tx with
    | none => (s, none)
    | some (a, i) =>
      let s := { s with txMap := upd s.txMap tx none }
      match getAction s a i with
      | none => (s, some .actionDataNotFound)
      | some e =>
        let s := { s with log := s.log ++ [.answered tx succeeded] }
        if !succeeded then
          if e.kind = .registration then (cleanupRegistration s a i, none)
          else ({ s with actions := dropAction s.actions a i }, none)
        else if e.kind = .registration then completeRegistration s a i idOk
        else if e.kind = .resignation then completeDeregistration s a i
        else (s, none)

/-- `on_new_session`: visit the action entries in some order (`visit`). Models `pallets/authors-manager/src/lib.rs:729-801`. -/
def newSession (active disabled : List Nat) : List (Nat × Nat) → State → State
  | [], s => s
  | (a, i) :: rest, s =>
    match getAction s a i with
    | none => newSession active disabled rest s
    | some e =>
      if e.status = .awaiting ∧ e.kind = .resignation ∧ ¬ (a ∈ active ∨ a ∈ disabled) then
        newSession active disabled rest (removeKey { s with actions := setAction s.actions a i .confirmed e.kind } a)
      else if e.status = .awaiting ∧ e.kind = .activation then
        newSession active disabled rest { s with actions := setAction s.actions a i .confirmed e.kind }
      else newSession active disabled rest s

/-- `new_session` of the session manager: the next authors, or `none` to keep the old ones. Models `pallets/authors-manager/src/lib.rs:804-829`. -/
def nextAuthors (s : State) : Option (List Nat) := if s.authors = [] then none else some s.authors

/-- What can happen, as in `Model/Validators.lean`. -/
inductive Step where
  | add (a k pos : Nat) (sessionKeys keyOk bridgeOk : Bool)
  | remove (a : Nat) (keyOk bridgeOk : Bool)
  | rotate (a old new pos : Nat)
  | otherPublish
  | bridgeResult (tx : Nat) (mine succeeded idOk : Bool)
  | bridgeDropped (tx : Nat) (mine : Bool)
  | session (active disabled : List Nat) (visit : List (Nat × Nat))

/-- A transactional call: the state changes only on success. -/
def commit (s : State) (r : State × Option Err) : State :=
  match r with
  | (s', none) => s'
  | (_, some _) => s

/-- One step. `minA` is `MinimumAuthorsCount`. -/
def step (minA : Nat) (s : State) : Step → State
  | .add a k pos sk ko bo => commit s (addAuthor s a k pos sk ko bo)
  | .remove a ko bo => commit s (removeAuthor minA s a ko bo)
  | .rotate a o n pos => commit s (rotateKey s a o n pos)
  | .otherPublish => { s with nextTx := s.nextTx + 1 }
  | .bridgeResult tx m ok idOk => commit s (processResult s tx m ok idOk)
  | .bridgeDropped tx m => (processResult s tx m false false).1
  | .session act dis vis => newSession act dis vis s

/-- A history. -/
def run (minA : Nat) (s : State) (steps : List Step) : State := steps.foldl (step minA) s

/-- The genesis state: authors with their keys. Models `pallets/authors-manager/src/lib.rs:238-251`. -/
def genesis (vs : List (Nat × Nat)) : State where
  authors := vs.map Prod.fst
  actions := []
  keys := vs.map fun v => (v.2, v.1)
  rev := fun a => (vs.find? fun v => v.1 == a).map Prod.snd
  ingress := 0
  txMap := fun _ => none
  nextTx := 0
  log := []

end Verif.Authors
