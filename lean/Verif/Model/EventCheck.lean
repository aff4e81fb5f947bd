import Verif.Model.Calldata
import Verif.Model.EventParsing
import Verif.Model.EthereumEvents

/-!
# How a validator checks an Ethereum event (`pallets/ethereum-events`, off-chain worker)

The worker asks the node's external service for the receipt of a transaction, looks for the announced event in it and turns it
into a check result; the primary submits its result, every other validator compares the submitted result with its own and
challenges it if they differ.

Strings are their UTF-8 bytes. `String::to_lowercase` is modelled on ASCII: no other character becomes a hex digit, and any
string with another character is refused by the hex decoder in either case. Reading JSON text (`simple_json2`, an external
crate, after `from_utf8`) is a parameter. Signing and the transport of the transactions are not modelled.
-/

namespace Verif.EventCheck

open Verif Verif.Events
open Verif.Calldata (hexVal hexDecode hexEncode)
open Verif.EthEvents (EventId CheckResult)
open Verif.Parsing (EventData)

/-- A JSON value. Numbers, booleans and null are never read (`other`). Models `simple_json2::json::JsonValue`. -/
inductive Json where
  | str (s : List UInt8)
  | arr (xs : List Json)
  | obj (kvs : List (List UInt8 × Json))
  | other

/-- `JsonObject`: the members in the order of the text. -/
abbrev Obj := List (List UInt8 × Json)

/-- Outcome of a function that can fail or panic. -/
inductive Out (α : Type) where
  | ok (a : α)
  | err
  | panic
deriving DecidableEq, Repr

/-- The `?` operator. -/
def Out.bind {α β : Type} (o : Out α) (f : α → Out β) : Out β :=
  match o with
  | .ok a => f a
  | .err => .err
  | .panic => .panic

/-- `JsonValue::get_string`. -/
def getString : Json → Out (List UInt8)
  | .str s => .ok s
  | _ => .err

/-- `JsonValue::get_array`. -/
def getArray : Json → Out (List Json)
  | .arr xs => .ok xs
  | _ => .err

/-- `JsonValue::get_object`. -/
def getObject : Json → Out Obj
  | .obj kvs => .ok kvs
  | _ => .err

/-- `get_value_of`: the first member with this key. Models `pallets/ethereum-events/src/event_parser.rs:20-28`. -/
def getValueOf (key : List UInt8) (o : Obj) : Out Json :=
  match o.find? (fun kv => kv.1 == key) with
  | some kv => .ok kv.2
  | none => .err

/-- `to_lowercase`, on ASCII. -/
def lower (b : UInt8) : UInt8 := if 65 ≤ b.toNat ∧ b.toNat ≤ 90 then UInt8.ofNat (b.toNat + 32) else b

/-- Lower case without one leading `0x`. Models `pallets/ethereum-events/src/event_parser.rs:171-175,182-185`. -/
def strip0x (s : List UInt8) : List UInt8 :=
  if (s.map lower).take 2 = [48, 120] then (s.map lower).drop 2 else s.map lower

/-- `hex_to_bytes`. Models `pallets/ethereum-events/src/event_parser.rs:170-179`. -/
def hexToBytes (s : List UInt8) : Out (List UInt8) :=
  match hexDecode (strip0x s) with
  | some b => .ok b
  | none => .err

/-- `to_bytes32` (an array of another length is an error). Models `pallets/ethereum-events/src/event_parser.rs:181-191`. -/
def toBytes32 (s : List UInt8) : Out (List UInt8) :=
  match hexDecode (strip0x s) with
  | some b => if b.length = 32 then .ok b else .err
  | none => .err

/-- `get_event_signature`: `topics[0]` of an empty array panics.
Models `pallets/ethereum-events/src/event_parser.rs:154-160`. -/
def getEventSignature (ev : Json) : Out (List UInt8) :=
  (getObject ev).bind fun o => (getValueOf (ascii "topics") o).bind fun t => (getArray t).bind fun ts =>
    match ts with
    | [] => .panic
    | t0 :: _ => getString t0

/-- `topic_matches`; the topic is the number of its big-endian bytes, as elsewhere in this model.
Models `pallets/ethereum-events/src/event_parser.rs:193-196`. -/
def topicMatches (ev : Json) (topic : Nat) : Out Bool :=
  (getEventSignature ev).bind fun s => (toBytes32 s).bind fun b => .ok (beVal b == topic)

/-- The `find` over the logs: the first one whose first topic matches; an error counts as no match, a panic ends the search.
Models `pallets/ethereum-events/src/event_parser.rs:77-81`. -/
def findLog (topic : Nat) : List Json → Out (Option Json)
  | [] => .ok none
  | ev :: evs =>
    match topicMatches ev topic with
    | .panic => .panic
    | .ok true => .ok (some ev)
    | _ => findLog topic evs

/-- `get_contract_address`: `H160::from_slice` panics unless there are twenty bytes.
Models `pallets/ethereum-events/src/event_parser.rs:162-168`. -/
def getContractAddress (ev : Json) : Out (List UInt8) :=
  (getObject ev).bind fun o => (getValueOf (ascii "address") o).bind fun v => (getString v).bind fun s =>
    (hexToBytes s).bind fun b => if b.length = 20 then .ok b else .panic

/-- The loop over the topics. Models `pallets/ethereum-events/src/event_parser.rs:144-149`. -/
def topicBytes : List Json → Out (List (List UInt8))
  | [] => .ok []
  | t :: ts => (getString t).bind fun s => (hexToBytes s).bind fun b => (topicBytes ts).bind fun r => .ok (b :: r)

/-- `get_topics`. Models `pallets/ethereum-events/src/event_parser.rs:136-152`. -/
def getTopics (ev : Json) : Out (List (List UInt8)) :=
  (getObject ev).bind fun o => (getValueOf (ascii "topics") o).bind fun v => (getArray v).bind topicBytes

/-- `get_data`: no bytes are `None`. Models `pallets/ethereum-events/src/event_parser.rs:120-134`. -/
def getData (ev : Json) : Out (Option (List UInt8)) :=
  (getObject ev).bind fun o => (getValueOf (ascii "data") o).bind fun v => (getString v).bind fun s =>
    (hexToBytes s).bind fun b => .ok (if b = [] then none else some b)

/-- `get_events(response).unwrap_or(empty)`. Models `pallets/ethereum-events/src/event_parser.rs:75-76,111-118`. -/
def getEvents (o : Obj) : List Json :=
  match (getValueOf (ascii "logs") o).bind getArray with
  | .ok xs => xs
  | _ => []

/-- What `find_event` returns about a log: data, topics, contract. -/
structure Found where
  data : Option (List UInt8)
  topics : List (List UInt8)
  contract : List UInt8
deriving DecidableEq, Repr

/-- `find_event`. Models `pallets/ethereum-events/src/event_parser.rs:71-92`. -/
def findEvent (o : Obj) (topic : Nat) : Out (Option Found) :=
  match findLog topic (getEvents o) with
  | .panic => .panic
  | .err => .ok none
  | .ok none => .ok none
  | .ok (some ev) =>
    match getContractAddress ev with
    | .panic => .panic
    | .err => .ok none
    | .ok addr =>
      match (getTopics ev).bind fun ts => (getData ev).bind fun d => .ok (Found.mk d ts addr) with
      | .panic => .panic
      | .err => .ok none
      | .ok f => .ok (some f)

/-- `trim_start_matches("0x")`: every leading `0x` is removed. -/
def trim0x : List UInt8 → List UInt8
  | 48 :: 120 :: s => trim0x s
  | s => s

/-- The digits of `u8::from_str_radix(_, 16)`. -/
def digits (acc : Nat) : List UInt8 → Option Nat
  | [] => some acc
  | b :: s =>
    match hexVal b with
    | none => none
    | some d => if acc * 16 + d < 256 then digits (acc * 16 + d) s else none

/-- `u8::from_str_radix(s, 16)`: one leading plus sign is allowed, the empty string is not. -/
def fromRadix16 (s : List UInt8) : Option Nat :=
  match s with
  | [] => none
  | 43 :: s' => if s' = [] then none else digits 0 s'
  | _ => digits 0 s

/-- `get_status`. Models `pallets/ethereum-events/src/event_parser.rs:94-103`. -/
def getStatus (o : Obj) : Out Nat :=
  (getValueOf (ascii "status") o).bind fun v => (getString v).bind fun s =>
    match fromRadix16 (trim0x s) with
    | some n => .ok n
    | none => .err

/-! ### The answer of the external service -/

/-- SCALE decoding of `Compact<u32>`. Only the canonical forms are accepted, as the codec does. -/
def decodeCompact : List UInt8 → Option (Nat × List UInt8)
  | [] => none
  | b :: bs =>
    if b.toNat % 4 = 0 then some (b.toNat / 4, bs)
    else if b.toNat % 4 = 1 then
      if bs.length < 1 then none
      else let n := leVal (b :: bs.take 1) / 4
           if n < 64 then none else some (n, bs.drop 1)
    else if b.toNat % 4 = 2 then
      if bs.length < 3 then none
      else let n := leVal (b :: bs.take 3) / 4
           if n < 16384 then none else some (n, bs.drop 3)
    else if b.toNat = 3 then
      if bs.length < 4 then none
      else let n := leVal (bs.take 4)
           if n < 1073741824 then none else some (n, bs.drop 4)
    else none

/-- SCALE decoding of `Vec<u8>`. -/
def decodeVec (bs : List UInt8) : Option (List UInt8 × List UInt8) :=
  match decodeCompact bs with
  | none => none
  | some (n, rest) => if rest.length < n then none else some (rest.take n, rest.drop n)

/-- `EthQueryResponse::decode`: data and confirmations; trailing bytes are ignored.
Models `primitives/avn-common/src/lib.rs:396-400`. -/
def decodeResponse (bs : List UInt8) : Option (List UInt8 × Nat) :=
  match decodeVec bs with
  | none => none
  | some (data, rest) => if rest.length < 8 then none else some (data, leVal (rest.take 8))

variable (readJson : List UInt8 → Option Json)

/-- `parse_response_to_json`. `readJson` is `from_utf8` followed by `simple_json2::parse_json`.
Models `pallets/ethereum-events/src/event_parser.rs:30-69`. -/
def parseResponse (body : List UInt8) : Option (Obj × Nat) := do
  let bytes ← hexDecode body
  let (data, confs) ← decodeResponse bytes
  let (text, _) ← decodeVec data
  let json ← readJson text
  match json with
  | .obj kvs => some (kvs, confs)
  | _ => none

/-- Confirmations as the external service counts them: the difference of two `u64`, which wraps around in a release build. The
current block was asked for before the receipt; a receipt without a block number counts as block zero.
Models `client/external-service/src/lib.rs:129-142` and `Cargo.toml:179-189` (no overflow checks). -/
def confirmations (current : Nat) (block : Option Nat) : Nat := (current + pow64 - block.getD 0) % pow64

/-- `to_eth_query_response` for a receipt whose JSON text is given: what `/eth/query` answers.
Models `client/external-service/src/lib.rs:129-142,200-225`. -/
def serviceAnswer (text : List UInt8) (current : Nat) (block : Option Nat) : List UInt8 :=
  hexEncode (scaleBytes (scaleBytes text) ++ leBytes 8 (confirmations current block))

/-! ### The check -/

/-- What the validator's node and chain state contribute: bridge contract, registered NFT contracts and
`MinEthBlockConfirmation` (20, runtime/avn/src/configs/mod.rs:387). -/
structure Cfg where
  bridge : List UInt8
  nftContracts : List (List UInt8)
  minConfs : Nat

/-- `is_event_contract_valid`. Models `pallets/ethereum-events/src/lib.rs:1557-1570`. -/
def contractValid (c : Cfg) (addr : List UInt8) (id : EventId) : Bool :=
  match tryFrom id.signature with
  | none => false
  | some k => if isNft k then c.nftContracts.contains addr else c.bridge == addr

/-- `parse_tier1_event`: the parser of the event's kind; direct ERC-20 transfers are not known here.
Models `pallets/ethereum-events/src/lib.rs:1071-1146`. -/
def parseTier1 (id : EventId) (data : Option (List UInt8)) (topics : List (List UInt8)) : Out EventData :=
  match tryFrom id.signature with
  | none => .err
  | some .erc20DirectTransfer => .err
  | some k =>
    match Parsing.parse k data topics with
    | .ok d => .ok d
    | .err _ => .err
    | .panic => .panic

/-- A validator's verdict: the result and the event data (`none` = `EmptyEvent`). -/
structure Verdict where
  result : CheckResult
  data : Option EventData
deriving DecidableEq

/-- The verdict on an answer that could be read. Models `pallets/ethereum-events/src/lib.rs:1434-1496`. -/
def judge (c : Cfg) (o : Obj) (confs : Nat) (id : EventId) : Out Verdict :=
  if o.isEmpty then .ok ⟨.invalid, none⟩
  else if getStatus o ≠ .ok 1 then .ok ⟨.invalid, none⟩
  else match findEvent o id.signature with
    | .panic => .panic
    | .err => .ok ⟨.invalid, none⟩
    | .ok none => .ok ⟨.invalid, none⟩
    | .ok (some f) =>
      if contractValid c f.contract id = false then .ok ⟨.invalid, none⟩
      else match parseTier1 id f.data f.topics with
        | .panic => .panic
        | .err => .ok ⟨.invalid, none⟩
        | .ok d => if confs < c.minConfs then .ok ⟨.insufficientConfirmations, none⟩ else .ok ⟨.ok, some d⟩

/-- `compute_result`: the verdict on the service's answer (`none` = the request failed).
Models `pallets/ethereum-events/src/lib.rs:1393-1496`. -/
def computeResult (c : Cfg) (body : Option (List UInt8)) (id : EventId) : Out Verdict :=
  match body with
  | none => .ok ⟨.httpErrorCheckingEvent, none⟩
  | some b =>
    match parseResponse readJson b with
    | none => judge c [] 0 id
    | some (o, confs) => judge c o confs id

/-! ### The worker -/

/-- `EventData::is_valid` of the check result's data (`EmptyEvent` is valid; `LogLowerClaimed` has no case and is not).
Models `primitives/avn-common/src/event_types.rs:221-225,287-289,435-439,512-514,563-565,613-615,654-656,747-749,834-852`. -/
def isValid : Option EventData → Bool
  | none => true
  | some (.addedValidator d) => d.ethPublicKey != Vector.replicate 64 0 && d.t2Address != Vector.replicate 32 0 && d.validatorAccountId != 0
  | some (.lifted d) => d.tokenContract != Vector.replicate 20 0 && d.receiverAddress != Vector.replicate 32 0
  | some (.liftedToPredictionMarket d) => d.tokenContract != Vector.replicate 20 0 && d.receiverAddress != Vector.replicate 32 0
  | some (.erc20Transfer d) => d.tokenContract != Vector.replicate 20 0 && d.receiverAddress != Vector.replicate 32 0
  | some (.nftMinted d) => d.batchId != 0 && d.owner != Vector.replicate 32 0 && !d.ref.isEmpty
  | some (.nftTransferTo d) => d.transferTo != Vector.replicate 32 0
  | some (.nftCancelListing _) => true
  | some (.nftEndBatchListing _) => true
  | some (.avtGrowthLifted d) => decide (0 < d.amount.val)
  | some (.lowerReverted d) =>
    d.tokenContract != Vector.replicate 20 0 && d.receiverAddress != Vector.replicate 32 0 && decide (0 < d.amount.val)
  | some (.lowerClaimed _) => false

/-- A validator's node: its account, what it reads from the chain, what its external service answers, and the list of events it
has validated already (`none` = the node has no such list yet). -/
structure Node where
  me : Nat
  cfg : Cfg
  fetch : EventId → Option (List UInt8)
  validated : Option (List EventId)

variable {W : Type} (code : Option EventData → Nat)

/-- `check_event`. Models `pallets/ethereum-events/src/lib.rs:1380-1391`. -/
def verdict (nd : Node) (id : EventId) : Out Verdict := computeResult readJson nd.cfg (nd.fetch id) id

/-- The first entry of the unchecked queue that is finalised. Models `pallets/ethereum-events/src/lib.rs:1148-1159`. -/
def nextToCheck (s : EthEvents.State W) (finalised : Nat) : Option EthEvents.Unchecked :=
  s.unchecked.find? (fun u => decide (u.block ≤ finalised))

/-- `try_check_event` with `check_event_and_submit_result`: the transaction the primary submits, if any. `code` is the encoding
of the event data. Models `pallets/ethereum-events/src/lib.rs:984-1005,1240-1283`. -/
def checkStep (nd : Node) (s : EthEvents.State W) (block finalised : Nat) : Out (Option (EthEvents.Step W)) :=
  match nextToCheck s finalised with
  | none => .ok none
  | some u =>
    (verdict readJson nd u.id).bind fun v =>
      if v.result = .httpErrorCheckingEvent ∨ v.result = .insufficientConfirmations then .ok none
      else .ok (some (.submit ⟨⟨u.id, code v.data⟩, v.result, nd.me, block, 0, 0⟩ u.counter nd.me (isValid v.data) true))

/-- `get_next_event_to_process`: the last entry that is ready and finalised.
Models `pallets/ethereum-events/src/lib.rs:1199-1216`. -/
def nextToProcess (s : EthEvents.State W) (block finalised : Nat) : Option EthEvents.Pending :=
  (s.pending.filter (fun p => decide (p.check.readyAfter < block) && decide (p.block ≤ finalised))).getLast?

/-- `try_process_event` with `send_event`. Models `pallets/ethereum-events/src/lib.rs:1007-1024,1218-1238`. -/
def processStep (nd : Node) (s : EthEvents.State W) (block finalised : Nat) : Option (EthEvents.Step W) :=
  (nextToProcess s block finalised).map fun p => .process p.id p.counter nd.me true

/-- `get_next_event_to_validate` with `can_validate_this_event`: the first finalised entry checked by somebody else which this
node has not validated. Models `pallets/ethereum-events/src/lib.rs:1161-1197`. -/
def nextToValidate (nd : Node) (s : EthEvents.State W) (finalised : Nat) : Option EthEvents.Pending :=
  s.pending.find? (fun p =>
    (if p.check.checkedBy = nd.me then false
     else match nd.validated with
      | none => true
      | some l => !l.contains p.id) && decide (p.block ≤ finalised))

/-- The verdict a pending check result states, its data as encoded. -/
structure Stated where
  result : CheckResult
  payload : Nat
deriving DecidableEq

/-- `get_challenge_if_required` on encoded data (`code` is injective, so comparing codes is comparing data).
Models `pallets/ethereum-events/src/lib.rs:1323-1363`. -/
def challengesCoded (checked own : Stated) : Bool :=
  if (own.result = checked.result ∧ own.payload = checked.payload) ∨
      (own.result = .invalid ∧ checked.result = .invalid) then false
  else match own.result with
    | .ok => true
    | .invalid => decide (checked.result = .ok)
    | _ => false

/-- `try_validate_event` with `validate_event`: the challenge submitted, if any, and the new list of validated events. When the
service fails the event stays to be validated; otherwise it is noted before the comparison, whatever the verdict.
Models `pallets/ethereum-events/src/lib.rs:1026-1043,1285-1321,1365-1378`. -/
def validateStep (nd : Node) (s : EthEvents.State W) (finalised : Nat) :
    Out (Option (List EventId) × Option (EthEvents.Step W)) :=
  match nextToValidate nd s finalised with
  | none => .ok (nd.validated, none)
  | some p =>
    (verdict readJson nd p.id).bind fun v =>
      if v.result = .httpErrorCheckingEvent then .ok (nd.validated, none)
      else .ok (some (nd.validated.getD [] ++ [p.id]),
        if challengesCoded ⟨p.check.result, p.check.event.payload⟩ ⟨v.result, code v.data⟩ then
          some (.challenge p.id nd.me p.counter nd.me true)
        else none)

/-- The main part of `offchain_worker`: the primary of the block checks and processes, everybody else validates. A panic in the
check keeps the rest from running. Models `pallets/ethereum-events/src/lib.rs:812-846`. -/
def work (nd : Node) (s : EthEvents.State W) (block finalised : Nat) :
    Out (Option (List EventId) × List (EthEvents.Step W)) :=
  match Avn.primaryForBlock s.validators block with
  | .error _ => .ok (nd.validated, [])
  | .ok p =>
    if p = nd.me then
      (checkStep readJson code nd s block finalised).bind fun c =>
        .ok (nd.validated, c.toList ++ (processStep nd s block finalised).toList)
    else
      (validateStep readJson code nd s finalised).bind fun r => .ok (r.1, r.2.toList)

end Verif.EventCheck
