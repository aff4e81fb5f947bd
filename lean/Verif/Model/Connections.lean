import Verif.Model.DiscoveryWorker

/-!
# Model of the discovery task's connections to Ethereum nodes

`Model/DiscoveryWorker` is one round for one bridge. This model is the task around it: it finds out in whose name the node votes, keeps
one connection per Ethereum network, and goes through all bridges of the runtime in every round. What the configured addresses answer,
what the runtime and the Ethereum nodes say and which of their queries fail are inputs. The log lists what the task asked and submitted.
The mutexes and the waiting are not modelled (the task is the only user of the connections).
-/

namespace Verif.Discovery

open Verif (Addr Hash)
open Verif.EthBridge (State Step Active)
open Verif.EventsClient (partitionToVote)
open Verif.Parsing (EventData)

variable {W : Type}

/-- A configured address of an Ethereum node (an index into the command line's list). Models `node/src/cli.rs:61`. -/
abbrev Url := Nat

/-- What an address answers when asked for its chain id: it is no address of a web service at all, the call fails, or a number.
Models `client/external-service/src/web3_utils.rs:66-74,123-130`. -/
inductive Answer where
  | notAnUrl
  | silent
  | chain (n : Nat)
deriving DecidableEq, Repr

/-- What the task did: asked an address for its chain id, or submitted a call for bridge `id` of network `chain` after reading the
Ethereum node at `url`. -/
inductive Ev (W : Type) where
  | asked (url : Url) (a : Answer)
  | voted (id chain : Nat) (url : Url) (op : Step W)

/-- `web3_data_mutexes`: the connections by chain id. Models
`client/external-service/src/ethereum_events_handler.rs:471`. -/
abbrev Conns := List (Nat × Url)

/-- `HashMap::get`. -/
def connOf (cs : Conns) (n : Nat) : Option Url := (cs.find? fun c => c.1 == n).map (·.2)

/-- `EthEventHandlerConfig::initialise_web3`: the addresses in their order; the first one that fails to answer ends it. The order is the
connections, what was asked, the connection for the network. Models
`client/external-service/src/ethereum_events_handler.rs:487-544`. -/
def initialise (ask : Url → Answer) (want : Nat) : List Url → Conns → Conns × List (Ev W) × Option Url
  | [], cs => (cs, [], none)
  | u :: us, cs =>
    match ask u with
    | .notAnUrl => initialise ask want us cs
    | .silent => (cs, [.asked u .silent], none)
    | .chain n =>
      if (connOf cs n).isSome then
        let r := initialise ask want us cs
        (r.1, .asked u (.chain n) :: r.2.1, r.2.2)
      else if n = want then ((n, u) :: cs, [.asked u (.chain n)], some u)
      else
        let r := initialise ask want us ((n, u) :: cs)
        (r.1, .asked u (.chain n) :: r.2.1, r.2.2)

/-- The loop of attempts; the `k`-th attempt gets the answers `ask k`. Models
`client/external-service/src/ethereum_events_handler.rs:580-599`. -/
def attempts (ask : Nat → Url → Answer) (want : Nat) (urls : List Url) : Nat → Nat → Conns → Conns × List (Ev W) × Option Url
  | 0, _, cs => (cs, [], none)
  | left + 1, k, cs =>
    match initialise (ask k) want urls cs with
    | (cs', evs, some u) => (cs', evs, some u)
    | (cs', evs, none) =>
      let r := attempts ask want urls left (k + 1) cs'
      (r.1, evs ++ r.2.1, r.2.2)

/-- `RETRY_LIMIT`. Models `client/external-service/src/ethereum_events_handler.rs:548`. -/
def retryLimit : Nat := 3

/-- `get_web3_connection_for_instance`. Models `client/external-service/src/ethereum_events_handler.rs:551-602`. -/
def connect (ask : Nat → Url → Answer) (urls : List Url) (want : Nat) (cs : Conns) : Conns × List (Ev W) × Option Url :=
  match connOf cs want with
  | some u => (cs, [], some u)
  | none => attempts ask want urls retryLimit 0 cs

/-- One bridge of the runtime in one round: its number and network, its contract, the answers of the addresses in each attempt to
connect, the Ethereum node behind each address, the states of the chain at the round's queries, and which queries fail: to the
runtime, for the latest Ethereum block, for its logs. Models `primitives/avn-common/src/eth/mod.rs:68-81` and the queries of
`client/external-service/src/ethereum_events_handler.rs:859-1022`. -/
structure Bridge (W : Type) where
  id : Nat
  chain : Nat
  contract : Addr
  ask : Nat → Url → Answer
  view : Url → Node
  reads : Reads W
  runtimeFails : Bool
  latestFails : Bool
  logsFail : Bool

/-- The round of one bridge after it got its connection: an error, or the call it submits, if any. A round whose events do not read or
whose partition does not exist is an error. Models `client/external-service/src/ethereum_events_handler.rs:725-770,776-1022`. -/
def bridgeRound (code : EventData → Nat) (me : Nat) (b : Bridge W) (url : Url) : Except Unit (Option (Step W)) :=
  let nd := { b.view url with me := me }
  match b.reads.atRange.active with
  | some act =>
    if b.latestFails then .error ()
    else if blockFinalised nd act.range.endBlock then
      if hasCastedVote b.reads.atVoted me then .ok none
      else if b.logsFail then .error ()
      else match processEvents code b.contract nd b.reads act.range act.partition with
        | none => .error ()
        | some op => .ok (some op)
    else .ok none
  | none =>
    if hasCastedVote b.reads.atVoted me then .ok none
    else if b.latestFails then .error ()
    else .ok (submitLatestBlock nd b.reads.atVoted)

/-- `query_runtime_and_process`: all bridges in turn; a bridge without a connection is passed over, an error ends the round. The order
is the connections and what was done. Models `client/external-service/src/ethereum_events_handler.rs:677-774`. -/
def fullRound (code : EventData → Nat) (urls : List Url) (me : Nat) : List (Bridge W) → Conns → Conns × List (Ev W)
  | [], cs => (cs, [])
  | b :: bs, cs =>
    if b.runtimeFails then (cs, [])
    else
      match connect b.ask urls b.chain cs with
      | (cs', evs, none) =>
        let r := fullRound code urls me bs cs'
        (r.1, evs ++ r.2)
      | (cs', evs, some u) =>
        match bridgeRound code me b u with
        | .error _ => (cs', evs)
        | .ok op =>
          let r := fullRound code urls me bs cs'
          (r.1, evs ++ (op.toList.map fun o => Ev.voted b.id b.chain u o) ++ r.2)

/-- `find_current_node_author`: the first author whose signing key is in the keystore; an author is its account and its signing key.
Models `client/external-service/src/ethereum_events_handler.rs:604-625`. Simplification: membership instead of sorting and searching. -/
def currentAuthor (authors : Option (List (Nat × Nat))) (keys : List Nat) : Option (Nat × Nat) :=
  authors.bind fun as => as.find? fun a => decide (a.2 ∈ keys)

/-- The loop at the start of the task: what the runtime said about the authors (`none` when the query failed) and the signing keys of
the keystore, each time it looked. Models `client/external-service/src/ethereum_events_handler.rs:646-668`. -/
def startUp : List (Option (List (Nat × Nat)) × List Nat) → Option (Nat × Nat)
  | [] => none
  | (as, keys) :: rest =>
    match currentAuthor as keys with
    | some a => some a
    | none => startUp rest

/-- The endless loop of rounds, after any number of them. Models
`client/external-service/src/ethereum_events_handler.rs:668-675`. -/
def rounds (code : EventData → Nat) (urls : List Url) (me : Nat) : List (List (Bridge W)) → Conns → Conns × List (Ev W)
  | [], cs => (cs, [])
  | bs :: rest, cs =>
    let r := fullRound code urls me bs cs
    let q := rounds code urls me rest r.1
    (q.1, r.2 ++ q.2)

/-- The whole task: the author is found once, then the rounds go on without end, with no connection at first. Models
`client/external-service/src/ethereum_events_handler.rs:627-675`, `node/src/service.rs:415-425`. -/
def task (code : EventData → Nat) (urls : List Url) (looks : List (Option (List (Nat × Nat)) × List Nat))
    (history : List (List (Bridge W))) : List (Ev W) :=
  match startUp looks with
  | none => []
  | some a => (rounds code urls a.1 history []).2

end Verif.Discovery
