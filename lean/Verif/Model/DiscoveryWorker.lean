import Verif.Model.EventsClient

/-!
# Model of one round of the event discovery task of an author node

The task reads the runtime several times in a round, each time at the best block of that moment (`Reads`). The Ethereum node is a view `Node` that is the same for the whole round.
The network, the keystore (the author's key is present) and the transaction pool (the vote is taken) are not modelled; the bridge
contract is that of the instance.
-/

namespace Verif.Discovery

open Verif (Addr Hash)
open Verif.EthBridge (State Step Active hasVoted)
open Verif.EventsClient (Log Found partitionToVote)
open Verif.Events (signature)
open Verif.Parsing (EventData)

variable {W : Type}

/-- An author's node: its account, the number of the latest Ethereum block it has seen, the logs and receipts its Ethereum node
returns and the order in which its hash maps are iterated. -/
structure Node where
  me : Nat
  latest : Nat
  chain : List Log
  receipt : Hash → Option Nat
  order : List Found → List Found

/-- The 32 bytes of a number (hashes and signatures are numbers in the model of the pallet). -/
def numHash (n : Nat) : Hash := Vector.ofFn fun i => UInt8.ofNat (n / 256 ^ (31 - i.val))

/-- `ETH_FINALITY`. Models `client/external-service/src/lib.rs:40`. -/
def ethFinality : Nat := 20

/-- `is_eth_block_finalised`. Models `client/external-service/src/web3_utils.rs:191-201`. -/
def blockFinalised (nd : Node) (block : Nat) : Bool := decide (nd.latest ≥ block + ethFinality)

/-- `query_signatures`: the signatures of the active filter. Models `pallets/eth-bridge/src/lib.rs:1272-1281`,
`runtime/avn/src/apis.rs:240-242`. -/
def wantedSignatures (s : State W) : List Hash :=
  match s.active with
  | some a => a.filter.map fun k => numHash (signature k)
  | none => []

/-- `additional_transactions`. Models `runtime/avn/src/apis.rs:262-268` and
`client/external-service/src/ethereum_events_handler.rs:899-907`. -/
def additionalTransactions (s : State W) : List Hash :=
  match s.active with
  | some a => a.additional.map numHash
  | none => []

/-- `query_has_author_casted_vote`. Models `runtime/avn/src/apis.rs:235-238`. -/
def hasCastedVote (s : State W) (a : Nat) : Bool := hasVoted s.votes a || hasVoted s.submitted a

/-- The states of the chain at which one round makes its queries, in this order: the active range, the signatures, whether the author
has voted, the additional transactions. (Without an active range only the first and the third are made.) -/
structure Reads (W : Type) where
  atRange : State W
  atSignatures : State W
  atVoted : State W
  atAdditional : State W

/-- `process_events` with `execute_event_processing`. Models
`client/external-service/src/ethereum_events_handler.rs:859-1022`. -/
def processEvents (code : EventData → Nat) (contract : Addr) (nd : Node) (r : Reads W) (range : EthBridge.Range) (partition : Nat) :
    Option (Step W) :=
  if hasCastedVote r.atVoted nd.me then none
  else match partitionToVote code nd.order nd.chain nd.receipt [contract] (wantedSignatures r.atSignatures)
      (additionalTransactions r.atAdditional) range partition with
    | none => none
    | some p => some (.submitEvents nd.me p)

/-- `submit_latest_ethereum_block`; the block number is cut to 32 bits. Models
`client/external-service/src/ethereum_events_handler.rs:776-857`. -/
def submitLatestBlock (nd : Node) (s : State W) : Option (Step W) :=
  if hasCastedVote s nd.me then none else some (.submitBlock nd.me (nd.latest % 2 ^ 32))

/-- `query_runtime_and_process`: the extrinsic a round submits, if any. Models
`client/external-service/src/ethereum_events_handler.rs:677-774`. -/
def workerRound (code : EventData → Nat) (contract : Addr) (nd : Node) (r : Reads W) : Option (Step W) :=
  match r.atRange.active with
  | some act => if blockFinalised nd act.range.endBlock then processEvents code contract nd r act.range act.partition else none
  | none => submitLatestBlock nd r.atVoted

end Verif.Discovery
