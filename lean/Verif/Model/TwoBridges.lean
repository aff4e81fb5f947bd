import Verif.Model.EthBridgeEvents

/-!
# Model of two bridge instances that share one record of processed Ethereum events

`runtime/test` runs two instances of `pallets/eth-bridge`. Both check and record processed events with the main instance
(`ProcessedEventsChecker = EthBridge`, `runtime/test/src/configs/mod.rs:521,538`), and both deliver events to the same pallets. What the
second instance recorded itself (with earlier versions of the runtime) is moved to the main instance in blocks with spare weight
(`EthereumEventsMigration = EthSecondBridge`, `runtime/test/src/configs/mod.rs:529`).

Simplifications: the votes of the second instance are left out; any event may be one its authors approved. Storage is iterated in the
order of hashed keys, which is some fixed list `order` here.
-/

namespace Verif.TwoBridges

open Verif.Events
open Verif.EthBridge (EthEvent)

/-- The main instance with everything modelled in `Model/EthBridgeEvents`, and of the second one its `Instance` and its own
`ProcessedEthereumEvents`. -/
structure Pair (W : Type) where
  main : EthBridge.State W
  valid2 : Bool
  network2 : Nat
  old : Nat → Option (ValidEvent × Bool)

/-- `ProcessingBatchBound`. Models `primitives/avn-common/src/lib.rs:77-78`. -/
def batchBound : Nat := 64

/-- The transactions in the second instance's record, in the order of iteration. -/
def remaining {W} (order : List Nat) (s : Pair W) : List Nat := order.filter fun h => (s.old h).isSome

/-- The event id handed over for a recorded transaction: its signature is computed from the kind. The payload plays no part.
Models `pallets/eth-bridge/src/lib.rs:1504-1513`. -/
def toEvent (h : Nat) (k : ValidEvent) : EthEvent := { signature := signature k, txHash := h, payload := 0 }

/-- The closure `entry_return`: an entry that the main instance did not take goes back, unless its signature is unknown.
Models `pallets/eth-bridge/src/lib.rs:1489-1502`, `pallets/avn/src/lib.rs:719-730`. -/
def giveBack {W} (s : Pair W) (e : EthEvent) (outcome : Bool) : Pair W :=
  match tryFrom e.signature with
  | none => s
  | some k => { s with old := upd s.old e.txHash (some (k, outcome)) }

/-- One entry in `migrate_events_batch`. Models `pallets/eth-bridge/src/lib.rs:1324-1349`. -/
def moveOne {W} (network : Nat) (s : Pair W) (x : EthEvent × Bool) : Pair W :=
  match EthBridge.addProcessedEventOn s.main network x.1 x.2 with
  | some m => { s with main := m }
  | none => giveBack s x.1 x.2

/-- The batch of `get_events_to_migrate`: the first entries of the record. Models `pallets/eth-bridge/src/lib.rs:1488,1504-1515`. -/
def batchOf {W} (order : List Nat) (s : Pair W) : List (EthEvent × Bool) :=
  ((remaining order s).take batchBound).filterMap fun h => (s.old h).map fun r => (toEvent h r.1, r.2)

/-- The entries of a batch are removed from the record. Models `pallets/eth-bridge/src/lib.rs:1521-1523`. -/
def takeOut {W} (s : Pair W) (batch : List (EthEvent × Bool)) : Pair W :=
  { s with old := fun h => if batch.any (fun x => x.1.txHash == h) then none else s.old h }

/-- `on_idle` of the main instance; `weightOk`: the block has weight left for a full batch. `get_network` gives nothing for an invalid
second instance. Models `pallets/eth-bridge/src/lib.rs:792-821,1473-1486,1517-1520`. -/
def onIdle {W} (order : List Nat) (weightOk : Bool) (s : Pair W) : Pair W :=
  if weightOk && s.valid2 && (s.main.network == s.network2) && s.main.instanceValid then
    let batch := batchOf order s
    batch.foldl (moveOne s.main.network) (takeOut s batch)
  else s

/-- What can happen. -/
inductive Step (W : Type) where
  | main (op : EthBridge.Step W)
  | secondEvent (e : EthEvent)
  | setSecond (network : Nat)
  | idle (weightOk : Bool)

/-- One step. An event approved by the second instance is processed like one of the main instance, in the main instance's record but
under the second instance's network. `SetEthBridgeInstance` takes only valid instances.
Models `pallets/eth-bridge/src/lib.rs:757-771,1026-1055`, `runtime/test/src/configs/mod.rs:515-548`. -/
def step {W} (handler : W → EthEvent → W × Bool) (order : List Nat) (s : Pair W) : Step W → Pair W
  | .main op => { s with main := EthBridge.step handler s.main op }
  | .secondEvent e => { s with main := (EthBridge.processEvent handler s.main s.network2 e).getD s.main }
  | .setSecond n => { s with valid2 := true, network2 := n }
  | .idle w => onIdle order w s

/-- A history. -/
def run {W} (handler : W → EthEvent → W × Bool) (order : List Nat) (s : Pair W) (steps : List (Step W)) : Pair W :=
  steps.foldl (step handler order) s

end Verif.TwoBridges
