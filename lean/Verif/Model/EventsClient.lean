import Verif.Model.EventParsing
import Verif.Model.EthBridgeEvents

/-!
# Discovery of Ethereum events by a node

Models `client/external-service/src/ethereum_events_handler.rs`: which of the logs of an Ethereum chain an author reports.
The Ethereum node is a list of logs in the order in which it returns them; its answer to a filter is the matching sublist
(`eth_getLogs`). Networking errors, which abort the round, are not modelled; nor are web3 connections, sleeping and signing.
-/

namespace Verif.EventsClient

open Verif (Addr Hash)
open Verif.Events (ValidEvent values isPrimary signature tryFrom)
open Verif.Parsing (EventData parse)

/-- `web3::types::Log`, reduced to the fields read here. -/
structure Log where
  address : Addr
  topics : List Hash
  data : List UInt8
  txHash : Option Hash
  block : Option Nat
deriving DecidableEq

/-- An `H256` as a number, as in `Verif.Events`. -/
def hashNat (h : Hash) : Nat := beVal h.toList

/-- `DiscoveredEvent`. Models `primitives/avn-common/src/event_discovery.rs:39-43`. -/
structure Found where
  sig : Hash
  tx : Hash
  data : EventData
  block : Nat
deriving DecidableEq

/-- `AppError`, reduced. Models `client/external-service/src/ethereum_events_handler.rs:197-209`. -/
inductive AppError where
  | missingEventSignature | missingTransactionHash | missingBlockNumber | unknownEvent | parsing | panicked
deriving DecidableEq, Repr

/-- `eth_getLogs` on blocks `lo` to `hi`. -/
def inRange (lo hi : Nat) (l : Log) : Bool :=
  match l.block with
  | some b => decide (lo ≤ b ∧ b ≤ hi)
  | none => false

/-- `topics[0]` is the signature of one of the kinds. -/
def topic0In (ks : List ValidEvent) (l : Log) : Bool :=
  match l.topics with
  | t :: _ => ks.any fun k => signature k == hashNat t
  | [] => false

/-- `H256::from(H160)`: widened with zeros on the left. -/
def widen (a : Addr) : List UInt8 := List.replicate 12 0 ++ a.toList

/-- `identify_primary_bridge_events`: logs of the bridge contracts. Models
`client/external-service/src/ethereum_events_handler.rs:241-266`. -/
def primaryLogs (chain : List Log) (lo hi : Nat) (contracts : List Addr) (ks : List ValidEvent) : List Log :=
  chain.filter fun l => inRange lo hi l && topic0In ks l && contracts.contains l.address

/-- The third topic is (the widened address of) a bridge contract.
Models `client/external-service/src/ethereum_events_handler.rs:224-228`. -/
def toBridge (contracts : List Addr) (l : Log) : Bool :=
  match l.topics[2]? with
  | some t => contracts.any fun c => widen c == t.toList
  | none => false

/-- `identify_secondary_bridge_events`: logs of any contract whose third topic is a bridge contract. Models
`client/external-service/src/ethereum_events_handler.rs:212-239`. -/
def secondaryLogs (chain : List Log) (lo hi : Nat) (contracts : List Addr) (ks : List ValidEvent) : List Log :=
  chain.filter fun l => inRange lo hi l && topic0In ks l && toBridge contracts l

/-- `parse_log` with `parse_event_data`. For an ERC-20 transfer the token is the contract that emitted the log.
Models `client/external-service/src/ethereum_events_handler.rs:409-453`. -/
def parseLog (l : Log) : Except AppError Found :=
  match l.topics with
  | [] => .error .missingEventSignature
  | t :: _ =>
    match l.txHash with
    | none => .error .missingTransactionHash
    | some tx =>
      match tryFrom (hashNat t) with
      | none => .error .unknownEvent
      | some k =>
        match parse k (if l.data = [] then none else some l.data) (l.topics.map Vector.toList) with
        | .panic => .error .panicked
        | .err _ => .error .parsing
        | .ok d =>
          match l.block with
          | none => .error .missingBlockNumber
          | some b =>
            .ok { sig := t, tx := tx, block := b
                  data := match d with
                    | .erc20Transfer e =>
                      .erc20Transfer (if e.tokenContract = Vector.replicate 20 0 then { e with tokenContract := l.address } else e)
                    | d => d }

/-- The loop over the logs: one entry per transaction hash, the first one; the first parse error aborts.
Models `client/external-service/src/ethereum_events_handler.rs:318-332`. -/
def collect : List Found → List Log → Except AppError (List Found)
  | acc, [] => .ok acc
  | acc, l :: ls =>
    match l.txHash with
    | none => collect acc ls
    | some tx =>
      if acc.any (fun f => f.tx == tx) then collect acc ls
      else
        match parseLog l with
        | .ok f => collect (acc ++ [f]) ls
        | .error e => .error e

/-- `identify_events`. The result is collected from a `HashMap`, i.e. in an unspecified order; the model lists it in order of
insertion and the theorems speak about membership or about every rearrangement.
Models `client/external-service/src/ethereum_events_handler.rs:268-340`. -/
def identifyEvents (chain : List Log) (lo hi : Nat) (contracts : List Addr) (wanted : List Hash) : Except AppError (List Found) :=
  let primary := values.filter isPrimary
  let secondary := values.filter fun k => !isPrimary k
  let logs := primaryLogs chain lo hi contracts primary
  let extend := (wanted.filterMap fun s => tryFrom (hashNat s)).any fun k => secondary.contains k
  let second := if extend then secondaryLogs chain lo hi contracts secondary else []
  match collect [] (logs ++ second) with
  | .error e => .error e
  | .ok fs => .ok (fs.filter fun f => wanted.contains f.sig)

/-- `identify_additional_events`: for every additional transaction known to the node, all events of its block. The receipt of
a transaction gives its block number. Models `client/external-service/src/ethereum_events_handler.rs:342-407`. -/
def identifyAdditional (chain : List Log) (receipt : Hash → Option Nat) (contracts : List Addr) (wanted : List Hash) :
    List Hash → Except AppError (List Found)
  | [] => .ok []
  | t :: ts =>
    match receipt t with
    | none => identifyAdditional chain receipt contracts wanted ts
    | some b =>
      match identifyEvents chain b b contracts wanted, identifyAdditional chain receipt contracts wanted ts with
      | .ok fs, .ok gs => .ok (fs ++ gs)
      | .error e, _ => .error e
      | _, .error e => .error e

/-- A discovered event as the bridge pallet sees it (`code` gives the opaque payload number of `Verif.EthBridge`). -/
def toDiscovered (code : EventData → Nat) (f : Found) : EthBridge.Discovered :=
  { event := { signature := hashNat f.sig, txHash := hashNat f.tx, payload := code f.data }, block := f.block }

/-- `execute_event_processing` up to the choice of the partition to vote for. `order` is the iteration order of the hash maps:
any rearrangement. Models `client/external-service/src/ethereum_events_handler.rs:929-982`. -/
def partitionToVote (code : EventData → Nat) (order : List Found → List Found) (chain : List Log) (receipt : Hash → Option Nat)
    (contracts : List Addr) (wanted : List Hash) (additional : List Hash) (range : EthBridge.Range) (partition : Nat) :
    Option EthBridge.Partition :=
  match identifyAdditional chain receipt contracts wanted additional,
      identifyEvents chain range.start range.endBlock contracts wanted with
  | .ok fs, .ok gs =>
    (EthBridge.createPartitions range ((order (fs ++ gs)).map (toDiscovered code))).find? fun p => p.number == partition
  | _, _ => none

end Verif.EventsClient
