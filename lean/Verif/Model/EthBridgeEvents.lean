import Verif.Model.Avn
import Verif.Model.EventTypes

/-!
# Model of the incoming half of `pallets/eth-bridge`: event discovery votes and event processing

Account ids, transaction hashes (`H256`, read big-endian) and event payloads are numbers: the code only compares
them. The rest of the runtime, which receives accepted events through
`BridgeInterfaceNotification::on_incoming_event_processed`, is an arbitrary type `W` with an arbitrary handler.
Weights and logging are not modelled; offences are in `Model/BridgeOffence`.
-/

namespace Verif.EthBridge

open Verif.Events

/-- `EthEvent`: event id (signature and transaction hash) and payload.
Models `primitives/avn-common/src/event_types.rs` `EthEventId`, `EthEvent`. The payload is opaque here. -/
structure EthEvent where
  signature : Nat
  txHash : Nat
  payload : Nat
deriving DecidableEq, Repr

/-- `DiscoveredEvent`. Models `primitives/avn-common/src/event_discovery.rs:39-43`. -/
structure Discovered where
  event : EthEvent
  block : Nat
deriving DecidableEq, Repr

/-- `EthBlockRange`. Models `primitives/avn-common/src/event_discovery.rs:19-22`. -/
structure Range where
  start : Nat
  length : Nat
deriving DecidableEq, Repr

/-- `u32::MAX`. -/
def maxU32 : Nat := 4294967295
/-- `u16::MAX`. -/
def maxU16 : Nat := 65535

/-- `EthBlockRange::next_range`. Models `primitives/avn-common/src/event_discovery.rs:25-30`. -/
def Range.next (r : Range) : Range := { start := min (r.start + r.length) maxU32, length := r.length }

/-- `EthBlockRange::end_block`. Models `primitives/avn-common/src/event_discovery.rs:34-36`. -/
def Range.endBlock (r : Range) : Nat := min (r.start + r.length) maxU32 - 1

/-- `EthereumEventsPartition`. Equality is field-wise. Models `primitives/avn-common/src/event_discovery.rs:61-67`. -/
structure Partition where
  range : Range
  number : Nat
  isLast : Bool
  events : List Discovered
deriving DecidableEq, Repr

/-- `ActiveEthRange`. Models `pallets/eth-bridge/src/types.rs:196-202`. -/
structure Active where
  range : Range
  partition : Nat
  filter : List ValidEvent
  additional : List Nat
deriving DecidableEq, Repr

/-- Ghost log of what the pallet did; not in storage. `eventVote`/`blockVote`: a successful vote call;
`approved`: a partition was processed; `handled`: the event was passed to the rest of the runtime;
`accepted`/`rejected`: the pallet events `EventAccepted`/`EventRejected`. -/
inductive Obs where
  | eventVote (author : Nat) (p : Partition)
  | approved (p : Partition)
  | handled (e : EthEvent)
  | accepted (e : EthEvent)
  | rejected (e : EthEvent)
  | blockVote (author block : Nat)
  | rangeSelected (r : Range)
deriving DecidableEq, Repr

/-- Storage of the pallet used by event discovery. `votes` is the map `EthereumEvents`, `submitted` the map
`SubmittedEthBlocks`, both as association lists. Models `pallets/eth-bridge/src/lib.rs:255-330`.
`authors` is `AVN::validators()`; `world` is the rest of the runtime. -/
structure State (W : Type) where
  instanceValid : Bool
  network : Nat
  active : Option Active
  votes : List (Partition × List Nat)
  processed : Nat → Option (ValidEvent × Bool)
  submitted : List (Nat × List Nat)
  queue : List Nat
  rangeSize : Nat
  authors : List Nat
  world : W
  log : List Obs

/-- Errors of these calls. Models `pallets/eth-bridge/src/lib.rs:365-421`. -/
inductive Err where
  | badOrigin | invalidInstance | nonActiveRange | eventVoteExists | eventVotesFull | votingEnded
  | invalidRange | eventAlreadyAccepted | quotaReached | invalidTransaction
deriving DecidableEq, Repr

/-- Result of a call: the new storage and the error, if any. On error the caller rolls back. -/
abbrev Res (W : Type) := State W × Option Err

/-- `T::Quorum::get_quorum()`. Models `pallets/avn/src/lib.rs:881-884`. -/
def quorum (authors : List Nat) : Nat := Avn.requiredFor authors.length
/-- `T::Quorum::get_supermajority_quorum()`. Models `pallets/avn/src/lib.rs:886-889`. -/
def supermajority (authors : List Nat) : Nat := Avn.requiredForSupermajority authors.length

/-- `MaximumValidatorsBound`, the bound of a vote set.
Models `pallets/eth-bridge/src/lib.rs:285-304`. -/
def votesLimit : Nat := 256

/-- `BoundedBTreeSet::try_insert`: `none` when a new element would exceed the bound. Sets are lists without
repetition; the order is not observable. -/
def tryInsert (bound : Nat) (l : List Nat) (a : Nat) : Option (List Nat) :=
  if a ∈ l then some l else if l.length < bound then some (l ++ [a]) else none

/-- Value of an association list map, default empty. -/
def lookupVotes {K : Type} [DecidableEq K] (m : List (K × List Nat)) (k : K) : List Nat :=
  match m.find? (fun e => e.1 = k) with
  | some e => e.2
  | none => []

/-- Insert/overwrite in an association list map. -/
def setVotes {K : Type} [DecidableEq K] : List (K × List Nat) → K → List Nat → List (K × List Nat)
  | [], k, v => [(k, v)]
  | e :: m, k, v => if e.1 = k then (k, v) :: m else e :: setVotes m k v

/-- `author_has_cast_event_vote` and `author_has_submitted_latest_block`.
Models `pallets/eth-bridge/src/lib.rs:1404-1420`. -/
def hasVoted {K : Type} (m : List (K × List Nat)) (a : Nat) : Bool := m.any (fun e => e.2.contains a)

/-- `ethereum_event_has_already_been_accepted`. Models `pallets/eth-bridge/src/lib.rs:1384-1391`. -/
def alreadyAccepted {W} (s : State W) (h : Nat) : Bool :=
  match s.processed h with
  | some (_, acc) => acc
  | none => false

/-- `ProcessedEventsChecker::add_processed_event`. `none` is the error `()`.
Models `pallets/eth-bridge/src/lib.rs:1428-1447`. -/
def addProcessedEvent {W} (s : State W) (e : EthEvent) (accepted : Bool) : Option (State W) :=
  if alreadyAccepted s e.txHash then none
  else
    let id := if legacyLiftSignatures.contains e.signature then some ValidEvent.lifted else tryFrom e.signature
    match id with
    | some id => some { s with processed := upd s.processed e.txHash (some (id, accepted)) }
    | none => none

/-- `NetworkAwareProcessedEventsChecker::processed_event_exists`. Models `pallets/eth-bridge/src/lib.rs:1451-1457`. -/
def processedEventExists {W} (s : State W) (network : Nat) (e : EthEvent) : Bool :=
  if s.instanceValid = false ∨ s.network ≠ network then false else (s.processed e.txHash).isSome

/-- `NetworkAwareProcessedEventsChecker::add_processed_event`. Models `pallets/eth-bridge/src/lib.rs:1459-1470`. -/
def addProcessedEventOn {W} (s : State W) (network : Nat) (e : EthEvent) (accepted : Bool) : Option (State W) :=
  if s.instanceValid && s.network == network then addProcessedEvent s e accepted else none

/-- `process_ethereum_event`. `none` is the error `EventAlreadyProcessed`. The handler's own storage changes are
kept even when it fails. Models `pallets/eth-bridge/src/lib.rs:1026-1055`. -/
def processEvent {W} (handler : W → EthEvent → W × Bool) (s : State W) (network : Nat) (e : EthEvent) :
    Option (State W) :=
  if processedEventExists s network e then none
  else match addProcessedEventOn s network e true with
    | none => none
    | some s1 =>
      let r := handler s1.world e
      some { s1 with
        world := r.1
        log := s1.log ++ [.handled e, if r.2 then .accepted e else .rejected e] }

/-- One iteration of the loop of `process_ethereum_events_partition`. Models `pallets/eth-bridge/src/lib.rs:979-1012`. -/
def processDiscovered {W} (handler : W → EthEvent → W × Bool) (network : Nat) (a : Active) (s : State W)
    (d : Discovered) : State W :=
  match tryFrom d.event.signature with
  | none => s
  | some kind =>
    if a.filter.contains kind then
      if d.block > a.range.endBlock then { s with log := s.log ++ [.rejected d.event] }
      else match processEvent handler s network d.event with
        | some s' => s'
        | none => { s with log := s.log ++ [.rejected d.event] }
    else s

/-- `process_ethereum_events_partition`: process every event, then drop all remaining votes.
Models `pallets/eth-bridge/src/lib.rs:970-1024` (the offence reports are in `Model/BridgeOffence`). -/
def processPartition {W} (handler : W → EthEvent → W × Bool) (s : State W) (network : Nat) (a : Active)
    (p : Partition) : State W :=
  let s1 := { s with votes := s.votes.filter (fun e => e.1 ≠ p) }
  let s2 := p.events.foldl (processDiscovered handler network a) s1
  { s2 with votes := [] }

/-- `advance_partition`. Models `pallets/eth-bridge/src/lib.rs:949-968`. -/
def advancePartition {W} (s : State W) (a : Active) (p : Partition) : State W :=
  if p.isLast then
    { s with
      queue := []
      active := some { range := a.range.next, partition := 0, filter := corePrimaryFilter, additional := s.queue } }
  else { s with active := some { a with partition := min (a.partition + 1) maxU16 } }

/-- `submit_ethereum_events`. Models `pallets/eth-bridge/src/lib.rs:582-635`. -/
def submitEvents {W} (handler : W → EthEvent → W × Bool) (s : State W) (author : Nat) (p : Partition) : Res W :=
  if s.instanceValid = false then (s, some .invalidInstance)
  else match s.active with
    | none => (s, some .nonActiveRange)
    | some a =>
      if p.range ≠ a.range ∨ p.number ≠ a.partition then (s, some .nonActiveRange)
      else if hasVoted s.votes author then (s, some .eventVoteExists)
      else match tryInsert votesLimit (lookupVotes s.votes p) author with
        | none => (s, some .eventVotesFull)
        | some vs =>
          let s0 := { s with log := s.log ++ [Obs.eventVote author p] }
          if vs.length < quorum s.authors then ({ s0 with votes := setVotes s.votes p vs }, none)
          else
            let s1 := { s0 with log := s0.log ++ [Obs.approved p] }
            (advancePartition (processPartition handler s1 s.network a p) a p, none)

/-- `compute_start_block_from_finalised_block_number`; `5 * range_length` wraps at `u32` in release builds.
Models `primitives/avn-common/src/event_discovery.rs:254-261`. -/
def computeStartBlock (block rangeLength : Nat) : Option Nat :=
  let cb := block - (5 * rangeLength) % pow32
  if rangeLength = 0 then none else some (cb - cb % rangeLength)

/-- Insert in a list sorted by `(block, count)`. -/
def insertSorted (x : Nat × Nat) : List (Nat × Nat) → List (Nat × Nat)
  | [] => [x]
  | y :: ys => if x.1 < y.1 ∨ (x.1 = y.1 ∧ x.2 ≤ y.2) then x :: y :: ys else y :: insertSorted x ys

/-- `Vec::sort` of `(block, count)` pairs (any sort gives the same list: the order is total). -/
def sortPairs : List (Nat × Nat) → List (Nat × Nat)
  | [] => []
  | x :: xs => insertSorted x (sortPairs xs)

/-- The selection loop: reduce the remaining threshold by the votes of each block in ascending order until it drops
below the quorum. Models `pallets/eth-bridge/src/lib.rs:686-696`. -/
def selectBlock (quorum : Nat) : Nat → List (Nat × Nat) → Option Nat
  | _, [] => none
  | remaining, (b, c) :: rest => if remaining - c < quorum then some b else selectBlock quorum (remaining - c) rest

/-- `submit_latest_ethereum_block`. When no block is selected the range is the default `(0, 0)`.
Models `pallets/eth-bridge/src/lib.rs:643-715`. `SubmittedEthBlocks::clear(256)` empties the map: it has at
most one entry per voter. -/
def submitBlock {W} (s : State W) (author latest : Nat) : Res W :=
  if s.instanceValid = false then (s, some .invalidInstance)
  else if s.active.isSome then (s, some .votingEnded)
  else if hasVoted s.submitted author then (s, some .eventVoteExists)
  else match computeStartBlock latest s.rangeSize with
    | none => (s, some .invalidRange)
    | some b =>
      match tryInsert votesLimit (lookupVotes s.submitted b) author with
      | none => (s, some .eventVotesFull)
      | some vs =>
        let sub := setVotes s.submitted b vs
        let s1 := { s with submitted := sub, log := s.log ++ [.blockVote author b] }
        let counts := sub.map (fun e => (e.1, e.2.length))
        let total := (counts.map Prod.snd).sum
        if supermajority s.authors ≤ total then
          let r : Range := match selectBlock (quorum s.authors) (supermajority s.authors) (sortPairs counts) with
            | some b => { start := b, length := s.rangeSize }
            | none => { start := 0, length := 0 }
          ({ s1 with
            active := some { range := r, partition := 0, filter := corePrimaryFilter, additional := s.queue }
            queue := []
            submitted := []
            log := s1.log ++ [.rangeSelected r] }, none)
        else (s1, none)

/-- Admin settings that touch event discovery. Models `pallets/eth-bridge/src/types.rs` `AdminSettings`.
`SetEthBridgeInstance` carries validity and network of the new instance only. -/
inductive Admin where
  | queueAdditional (h : Nat)
  | restartDiscovery
  | setInstance (valid : Bool) (network : Nat)
deriving DecidableEq, Repr

/-- `EthereumEvents::clear(n)`: removes at most `n` entries; which ones is decided by the hashed key order, here the
`keep` argument chooses (at most `votes.length - n` entries may stay). -/
def clearVotes (n : Nat) (keep : List Nat) (m : List (Partition × List Nat)) : List (Partition × List Nat) :=
  if m.length ≤ n then [] else
    ((m.zipIdx.filter (fun e => keep.contains e.2)).map Prod.fst).take (m.length - n)

/-- `set_admin_setting` (the settings relevant here; the origin is root).
Models `pallets/eth-bridge/src/lib.rs:726-778`. -/
def admin {W} (s : State W) (keep : List Nat) : Admin → Res W
  | .queueAdditional h =>
    if alreadyAccepted s h then (s, some .eventAlreadyAccepted)
    else match tryInsert 16 s.queue h with
      | some q => ({ s with queue := q }, none)
      | none => (s, some .quotaReached)
  | .restartDiscovery => ({ s with votes := clearVotes 100 keep s.votes }, none)
  | .setInstance valid network =>
    if valid then
      ({ s with votes := clearVotes 101 keep s.votes, instanceValid := true, network := network }, none)
    else (s, some .invalidInstance)

/-- `migrate_events_batch`: record events other pallets had processed.
Models `pallets/eth-bridge/src/lib.rs:1319-1352` (entries that cannot be added are handed back). -/
def migrateBatch {W} (s : State W) (network : Nat) (batch : List (EthEvent × Bool)) : State W :=
  batch.foldl (fun s e => (addProcessedEventOn s network e.1 e.2).getD s) s

/-- The first check of `validate_unsigned` for author calls: the claimed account is a current author
(`AVN::signature_is_valid`; the session-key signature is discussed with C23).
Models `pallets/eth-bridge/src/lib.rs:1137-1184`. -/
def isAuthor {W} (s : State W) (a : Nat) : Bool := s.authors.contains a

/-- Everything that can change this state. `external` stands for all other activity of the runtime. -/
inductive Step (W : Type) where
  | submitEvents (author : Nat) (p : Partition)
  | submitBlock (author latest : Nat)
  | admin (keep : List Nat) (a : Admin)
  | migrate (network : Nat) (batch : List (EthEvent × Bool))
  | addProcessed (e : EthEvent) (accepted : Bool)
  | newAuthors (authors : List Nat)
  | external (w : W)

/-- Failed calls leave no trace (FRAME extrinsics are transactional). -/
def transactional {W} (s : State W) (r : Res W) : State W := if r.2.isSome then s else r.1

/-- One step. Unsigned author calls go through `validate_unsigned` first.
`addProcessed` is the call `pallets/ethereum-events` makes through `ProcessedEventsChecker`
(runtime/avn/src/configs/mod.rs:399). -/
def step {W} (handler : W → EthEvent → W × Bool) (s : State W) : Step W → State W
  | .submitEvents a p => if isAuthor s a then transactional s (submitEvents handler s a p) else s
  | .submitBlock a l => if isAuthor s a then transactional s (submitBlock s a l) else s
  | .admin keep a => transactional s (admin s keep a)
  | .migrate n b => migrateBatch s n b
  | .addProcessed e acc => (addProcessedEvent s e acc).getD s
  | .newAuthors as => { s with authors := as }
  | .external w => { s with world := w }

/-- A history. -/
def run {W} (handler : W → EthEvent → W × Bool) (s : State W) (steps : List (Step W)) : State W :=
  steps.foldl (step handler) s

/-- The state before anything happened on a chain whose rest is `w`. -/
def initial {W} (w : W) (authors : List Nat) (rangeSize : Nat) : State W where
  instanceValid := true
  network := 0
  active := none
  votes := []
  processed := fun _ => none
  submitted := []
  queue := []
  rangeSize := rangeSize
  authors := authors
  world := w
  log := []

/-! ### Partition construction on the node side -/

/-- `DiscoveredEvent::cmp` as a Boolean `≤`. Models `primitives/avn-common/src/event_discovery.rs:51-59`. -/
def leD (a b : Discovered) : Bool :=
  a.block < b.block || (a.block == b.block && a.event.txHash ≤ b.event.txHash)

/-- Stable insertion (used from the right): before the first element that is not smaller. -/
def insertD (x : Discovered) : List Discovered → List Discovered
  | [] => [x]
  | y :: ys => if leD x y then x :: y :: ys else y :: insertD x ys

/-- `Vec::sort` (stable). -/
def sortD : List Discovered → List Discovered
  | [] => []
  | x :: xs => insertD x (sortD xs)

/-- `slice::chunks(n)` for `n > 0`, with fuel at least the list length. -/
def chunksAux (n : Nat) : Nat → List Discovered → List (List Discovered)
  | 0, _ => []
  | _ + 1, [] => []
  | f + 1, l => l.take n :: chunksAux n f (l.drop n)

/-- `slice::chunks`. -/
def chunks (n : Nat) (l : List Discovered) : List (List Discovered) := chunksAux n l.length l

/-- `BTreeSet::from_iter` on an already sorted chunk: the bulk build of the standard library (1.86) drops an entry
that is *equal* (`==`, all fields) to its successor. -/
def dedupAdj : List Discovered → List Discovered
  | [] => []
  | [x] => [x]
  | x :: y :: ys => if x = y then dedupAdj (y :: ys) else x :: dedupAdj (y :: ys)

/-- Number the chunks; the final one is flagged last; `partition as u16` truncates.
Models `primitives/avn-common/src/event_discovery.rs:228-241`. -/
def number (range : Range) (count : Nat) : Nat → List (List Discovered) → List Partition
  | _, [] => []
  | i, c :: cs =>
    { range := range, number := i % 65536, isLast := count == i + 1, events := dedupAdj c } :: number range count (i + 1) cs

/-- `create_partitions`. Models `primitives/avn-common/src/event_discovery.rs:212-251`. -/
def createPartitions (range : Range) (events : List Discovered) : List Partition :=
  let cs := chunks 32 (sortD events)
  let ps := number range cs.length 0 cs
  if ps = [] then [{ range := range, number := 0, isLast := true, events := [] }] else ps

end Verif.EthBridge
