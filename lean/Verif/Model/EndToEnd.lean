import Verif.Model.Deposits
import Verif.Model.DiscoveryWorker

/-!
# From a log of the bridge contract to the token manager

`Model/DiscoveryWorker.lean` says what the authors' nodes vote for, `Model/Deposits.lean` what the runtime does with what is
accepted. Here the two are put together: how the token manager reads the event data the nodes put into a vote, and the history of
the whole runtime as the bridge pallet sees it.
-/

namespace Verif.EndToEnd

open Verif

/-- The event data of a vote, as `processed_event_handler` reads it. Kinds without a handler in the production runtime
(`LogLiftedToPredictionMarket`, `LogErc20Transfer`) and the kinds of other pallets are ignored.
Models `pallets/token-manager/src/lib.rs:1119-1129`, `primitives/avn-common/src/event_types.rs:818-831`. -/
def readEvent : Parsing.EventData → TokenManager.EventData
  | .lifted d => .lifted d.tokenContract d.receiverAddress d.amount
  | .avtGrowthLifted d => .growthLifted d.amount d.period
  | .lowerClaimed d => .lowerClaimed d.lowerId
  | .lowerReverted d => .lowerReverted d.tokenContract d.receiverAddress d.amount d.lowerId
  | _ => .other

variable (decode : Nat → TokenManager.EventData)

/-- One step of the runtime as the bridge pallet sees it: its own calls, a transaction recorded as processed by the older pallet
(`pallets/eth-bridge/src/lib.rs:1428-1447`), and changes of the rest of the runtime. -/
def bridgeStep (s : Deposits.State) (st : Deposits.Step) : List (EthBridge.Step Deposits.World) :=
  match st with
  | .bridge envs op => [.external { s.bridge.world with envs := envs }, op.toStep]
  | .legacy _ _ op =>
    let s' := Deposits.step decode s st
    (match op.target with
      | some id =>
        if s'.legacy.processed id.txHash = s.legacy.processed id.txHash then []
        else [.addProcessed { signature := id.signature, txHash := id.txHash, payload := 0 } true]
      | none => []) ++ [.external s'.bridge.world]
  | .token _ _ => [.external (Deposits.step decode s st).bridge.world]
  | .block _ _ => []

/-- A history of the runtime as the bridge pallet sees it. -/
def bridgeHistory (s : Deposits.State) : List Deposits.Step → List (EthBridge.Step Deposits.World)
  | [] => []
  | st :: rest => bridgeStep decode s st ++ bridgeHistory (Deposits.step decode s st) rest

end Verif.EndToEnd
