import Verif.Model.EthBridgeEvents
import Verif.Model.EthereumEvents
import Verif.Model.TokenManager

/-!
# The runtime's wiring of the two ways an Ethereum event reaches the token manager

The runtime connects three pallets that are modelled separately:

* `pallets/eth-bridge` (partition votes) delivers accepted events through
  `BridgeInterfaceNotification = (Summary, TokenManager, ParachainStaking, ValidatorsManager)`
  (runtime/avn/src/configs/mod.rs:519; of these only the token manager reacts to the events modelled here);
* `pallets/ethereum-events` (check / challenge / process) delivers through
  `ProcessedEventHandler = (TokenManager, NftManager)` (runtime/avn/src/configs/mod.rs:393);
* all of them share the bridge's map of processed transactions, `ProcessedEventsChecker = EthBridge`
  (runtime/avn/src/configs/mod.rs:400,411,452,470,514).

Here the three models run side by side on one state: one processed map, one token manager. The only callers of
`TokenInterface` (`interfaceLift`, `depositTokens`) are not part of the production runtime and are left out.
`trace` is a ghost: the sequence of token-manager steps so far, and for each event which path delivered it and whether the
handler succeeded.
-/

namespace Verif.Deposits

open Verif Verif.Lower

/-- The two delivery paths. -/
inductive Path where
  | bridge | legacy
deriving DecidableEq, Repr

/-- Ghost entry: a delivered Ethereum event (with the native token's address at that moment and the outcome), or another
step of the token manager. -/
inductive Entry where
  | eth (path : Path) (e : EthBridge.EthEvent) (env : TokenManager.Env) (native : Addr) (ok : Bool)
  | call (env : TokenManager.Env) (st : TokenManager.Step)

/-- The rest of the runtime as the two bridge pallets see it: the token manager, what its handler will meet for each event
(arbitrary, chosen anew for every transaction), the outcome of the NFT pallet's handler, and the ghost trace. -/
structure World where
  tm : TokenManager.State
  envs : EthBridge.EthEvent → TokenManager.Env
  nftOk : EthBridge.EthEvent → Bool
  trace : List Entry

variable (decode : Nat → TokenManager.EventData)

/-- Delivery of an event to the token manager: `processed_event_handler`, not inside a storage layer.
Models `pallets/token-manager/src/lib.rs:1119-1129,1237-1243`. `decode` reads the event data of the payload. -/
def apply (path : Path) (w : World) (e : EthBridge.EthEvent) : World × Bool :=
  let r := TokenManager.step (w.envs e) w.tm (.event (decode e.payload))
  ({ w with tm := r.1, trace := w.trace ++ [.eth path e (w.envs e) w.tm.avtContract r.2.isNone] }, r.2.isNone)

/-- `on_incoming_event_processed`. Models `pallets/eth-bridge/src/lib.rs:1044-1052` with runtime/avn/src/configs/mod.rs:519. -/
def bridgeHandler (w : World) (e : EthBridge.EthEvent) : World × Bool := apply decode .bridge w e

/-- The same event in the bridge's representation. -/
def toBridge (e : EthEvents.EthEvent) : EthBridge.EthEvent :=
  { signature := e.id.signature, txHash := e.id.txHash, payload := e.payload }

/-- `ProcessedEventHandler for (TokenManager, NftManager)`: both are called in order, the first error stops.
Models `pallets/ethereum-events/src/lib.rs:614-638` with runtime/avn/src/configs/mod.rs:393. -/
def legacyHandler (e : EthEvents.EthEvent) (w : World) : World × Bool :=
  let r := apply decode .legacy w (toBridge e)
  (r.1, r.2 && w.nftOk (toBridge e))

/-- The two pallets. Their `processed` maps are the same storage, their worlds the same runtime. -/
structure State where
  bridge : EthBridge.State World
  legacy : EthEvents.State World

/-- What can happen at the bridge pallet. -/
inductive BridgeOp where
  | submitEvents (author : Nat) (p : EthBridge.Partition)
  | submitBlock (author latest : Nat)
  | admin (keep : List Nat) (a : EthBridge.Admin)
  | migrate (network : Nat) (batch : List (EthBridge.EthEvent × Bool))
  | newAuthors (authors : List Nat)

/-- As a step of the bridge model. -/
def BridgeOp.toStep : BridgeOp → EthBridge.Step World
  | .submitEvents a p => .submitEvents a p
  | .submitBlock a l => .submitBlock a l
  | .admin k a => .admin k a
  | .migrate n b => .migrate n b
  | .newAuthors as => .newAuthors as

/-- What can happen at the ethereum-events pallet. -/
inductive LegacyOp where
  | addLog (ty : Events.ValidEvent) (tx sender : Nat)
  | signedAddLog (ty : Events.ValidEvent) (tx sender signer : Nat) (sigOk : Nat → Bool)
  | submit (c : EthEvents.Check) (counter named : Nat) (dataOk sigOk : Bool)
  | process (id : EthEvents.EventId) (counter named : Nat) (sigOk : Bool)
  | challenge (id : EthEvents.EventId) (by_ counter named : Nat) (sigOk : Bool)
  | setPeriod (p : Nat)

/-- As a step of the ethereum-events model. -/
def LegacyOp.toStep : LegacyOp → EthEvents.Step World
  | .addLog ty tx a => .addLog ty tx a
  | .signedAddLog ty tx a g f => .signedAddLog ty tx a g f
  | .submit c k n d g => .submit c k n d g
  | .process id k n g => .process id k n g
  | .challenge id a k n g => .challenge id a k n g
  | .setPeriod p => .setPeriod p

/-- The event a `process` transaction is about. -/
def LegacyOp.target : LegacyOp → Option EthEvents.EventId
  | .process id _ _ _ => some id
  | _ => none

/-- Steps of the whole system. Every transaction meets an environment of its own. -/
inductive Step where
  | bridge (envs : EthBridge.EthEvent → TokenManager.Env) (op : BridgeOp)
  | legacy (envs : EthBridge.EthEvent → TokenManager.Env) (nftOk : EthBridge.EthEvent → Bool) (op : LegacyOp)
  | token (env : TokenManager.Env) (st : TokenManager.Step)
  | block (number : Nat) (validators : List Avn.Validator)

/-- Token-manager steps that are not deliveries of Ethereum events; those come only from the two pallets. -/
def ordinary : TokenManager.Step → Bool
  | .event _ => false
  | .interfaceLift _ _ _ => false
  | .depositTokens _ _ _ => false
  | _ => true

/-- The processed map as `pallets/ethereum-events` sees it. Models `pallets/eth-bridge/src/lib.rs:1424-1426`. -/
def view (m : Nat → Option (Events.ValidEvent × Bool)) (h : Nat) : Option Bool := (m h).map Prod.snd

/-- `add_processed_event(id, true)` reaching the bridge's storage: made when the ethereum-events pallet recorded the
transaction. Models `pallets/ethereum-events/src/lib.rs:571-588` with `pallets/eth-bridge/src/lib.rs:1428-1447`. -/
def record (b : EthBridge.State World) (before after : Nat → Option Bool) (id : EthEvents.EventId) : EthBridge.State World :=
  if after id.txHash = before id.txHash then b
  else (EthBridge.addProcessedEvent b { signature := id.signature, txHash := id.txHash, payload := 0 } true).getD b

/-- Only `process` transactions record anything. -/
def recordOp (b : EthBridge.State World) (before after : Nat → Option Bool) (op : LegacyOp) : EthBridge.State World :=
  match op.target with
  | some id => record b before after id
  | none => b

/-- One step of the system. -/
def step (s : State) : Step → State
  | .bridge envs op =>
    let b := EthBridge.step (bridgeHandler decode)
      { s.bridge with world := { s.bridge.world with envs := envs } } op.toStep
    { bridge := b, legacy := { s.legacy with world := b.world, processed := view b.processed } }
  | .legacy envs nftOk op =>
    let l0 := { s.legacy with world := { s.legacy.world with envs := envs, nftOk := nftOk } }
    let l := EthEvents.step (legacyHandler decode) l0 op.toStep
    { bridge := { recordOp s.bridge s.legacy.processed l.processed op with world := l.world }, legacy := l }
  | .token env st =>
    if ordinary st then
      let w := s.bridge.world
      let w' := { w with tm := (TokenManager.step env w.tm st).1, trace := w.trace ++ [.call env st] }
      { bridge := { s.bridge with world := w' }, legacy := { s.legacy with world := w' } }
    else s
  | .block n vs => { s with legacy := { s.legacy with block := n, validators := vs } }

/-- A history of the system. -/
def run (s : State) (steps : List Step) : State := steps.foldl (step decode) s

/-- The system at genesis: nothing voted, queued or processed beyond what the chain specification says. -/
def initial (tm : TokenManager.State) (env : TokenManager.Env) (authors : List Nat) (rangeSize quorumFactor period : Nat)
    (lifts : List Nat) (validators : List Avn.Validator) (filter : List Events.ValidEvent) : State :=
  let w : World := { tm := tm, envs := fun _ => env, nftOk := fun _ => true, trace := [] }
  { bridge := EthBridge.initial w authors rangeSize
    legacy := EthEvents.genesis quorumFactor period lifts (fun _ => none) validators filter w }

end Verif.Deposits
