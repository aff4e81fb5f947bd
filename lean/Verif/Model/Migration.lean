import Verif.Model.EventCheck
import Verif.Model.Lower

/-!
# Storage migrations run by a runtime upgrade

Models the migrations listed in `runtime/avn/src/lib.rs:116-120`: `pallets/eth-bridge/src/migration.rs`,
`pallets/token-manager/src/migration.rs`, `pallets/validators-manager/src/migration.rs`. Storage is modelled as the bytes it holds, since
a migration reads them with a type other than the one they will be read with afterwards. Weights are not modelled.
-/

namespace Verif.Migration

open Verif.EventCheck (decodeCompact)

/-! ### SCALE -/

/-- Encoder and decoder of a type; the decoder returns what is left. -/
structure Codec (α : Type) where
  enc : α → List UInt8
  dec : List UInt8 → Option (α × List UInt8)

/-- Unsigned integers, little endian. -/
def uint (k : Nat) : Codec Nat where
  enc := leBytes k
  dec bs := if bs.length < k then none else some (leVal (bs.take k), bs.drop k)

/-- `[u8; n]`, `H256`, account ids, signatures. -/
def fixed (n : Nat) : Codec (Bytes n) where
  enc v := v.toList
  dec bs := (Lower.toBytes? n (bs.take n)).map (fun v => (v, bs.drop n))

/-- Tuples and structs. -/
def pair {α β : Type} (a : Codec α) (b : Codec β) : Codec (α × β) where
  enc p := a.enc p.1 ++ b.enc p.2
  dec bs := do
    let (x, bs) ← a.dec bs
    let (y, bs) ← b.dec bs
    some ((x, y), bs)

/-- The items of a vector of known length. -/
def items {α : Type} (c : Codec α) : Nat → List UInt8 → Option (List α × List UInt8)
  | 0, bs => some ([], bs)
  | n + 1, bs => do
    let (x, bs) ← c.dec bs
    let (xs, bs) ← items c n bs
    some (x :: xs, bs)

/-- `BoundedVec`: decoding a longer one fails. -/
def vec {α : Type} (limit : Nat) (c : Codec α) : Codec (List α) where
  enc l := compact l.length ++ (l.map c.enc).flatten
  dec bs := do
    let (n, bs) ← decodeCompact bs
    if n > limit then none else items c n bs

/-- `bool`. -/
def bool : Codec Bool where
  enc b := if b then [1] else [0]
  dec bs := match bs with
    | b :: bs => if b = 0 then some (false, bs) else if b = 1 then some (true, bs) else none
    | [] => none

/-- `Option`. -/
def opt {α : Type} (c : Codec α) : Codec (Option α) where
  enc o := match o with
    | none => [0]
    | some a => 1 :: c.enc a
  dec bs := match bs with
    | b :: bs => if b = 0 then some (none, bs) else if b = 1 then (c.dec bs).map (fun p => (some p.1, p.2)) else none
    | [] => none

/-- Fields of a struct. -/
def iso {α β : Type} (c : Codec α) (to : α → β) (back : β → α) : Codec β where
  enc b := c.enc (back b)
  dec bs := (c.dec bs).map (fun p => (to p.1, p.2))

/-! ### The bridge's stored types -/

/-- Bytes with a limit. -/
def bytes (limit : Nat) : Codec (List UInt8) := iso (vec limit (uint 1)) (fun l => l.map UInt8.ofNat) (fun l => l.map UInt8.toNat)

/-- `SendRequestData`. Models `pallets/eth-bridge/src/types.rs:33-38`. -/
structure SendReq where
  txId : Nat
  name : List UInt8
  params : List (List UInt8 × List UInt8)
  caller : List UInt8
deriving DecidableEq

/-- Parameters of a request: at most five, types of at most 7 and values of at most 130 bytes.
Models `pallets/eth-bridge/src/lib.rs:136-142`. -/
def paramsC : Codec (List (List UInt8 × List UInt8)) := vec 5 (pair (bytes 7) (bytes 130))

/-- Codec of `SendRequestData`. -/
def sendC : Codec SendReq :=
  iso (pair (uint 4) (pair (bytes 32) (pair paramsC (bytes 50)))) (fun p => ⟨p.1, p.2.1, p.2.2.1, p.2.2.2⟩)
    (fun r => (r.txId, r.name, r.params, r.caller))

/-- `LowerProofRequestData` with packed parameters of `n` bytes: 116 now, 76 in `LegacyLowerProofRequestData`.
Models `pallets/eth-bridge/src/types.rs:86-91`, `migration.rs:73-78`. -/
structure LowerReq (n : Nat) where
  lowerId : Nat
  params : Bytes n
  caller : List UInt8
deriving DecidableEq

/-- Codec of `LowerProofRequestData`. -/
def lowerC (n : Nat) : Codec (LowerReq n) :=
  iso (pair (uint 4) (pair (fixed n) (bytes 50))) (fun p => ⟨p.1, p.2.1, p.2.2⟩) (fun r => (r.lowerId, r.params, r.caller))

/-- `Request`, and `LegacyRequest` for `n = 76`. Models `pallets/eth-bridge/src/types.rs:11-15`, `migration.rs:80-84`. -/
inductive Request (n : Nat) where
  | send (r : SendReq)
  | lower (r : LowerReq n)
deriving DecidableEq

/-- Codec of `Request`. -/
def requestC (n : Nat) : Codec (Request n) where
  enc r := match r with
    | .send r => 0 :: sendC.enc r
    | .lower r => 1 :: (lowerC n).enc r
  dec bs := match bs with
    | b :: bs =>
      if b = 0 then (sendC.dec bs).map (fun p => (.send p.1, p.2))
      else if b = 1 then ((lowerC n).dec bs).map (fun p => (.lower p.1, p.2))
      else none
    | [] => none

/-- `ActiveEthTransactionV3`. Models `pallets/eth-bridge/src/migration.rs:45-57`. -/
structure TxV3 where
  name : List UInt8
  params : List (List UInt8 × List UInt8)
  sender : Bytes 32
  expiry : Nat
  hash : Bytes 32
  success : List (Bytes 32)
  failure : List (Bytes 32)
  validHash : List (Bytes 32)
  invalidHash : List (Bytes 32)
  succeeded : Bool
deriving DecidableEq

/-- Codec of `ActiveEthTransactionV3`. -/
def txV3C : Codec TxV3 :=
  iso (pair (bytes 32) (pair paramsC (pair (fixed 32) (pair (uint 8) (pair (fixed 32) (pair (vec 100 (fixed 32)) (pair (vec 100 (fixed 32))
      (pair (vec 100 (fixed 32)) (pair (vec 100 (fixed 32)) bool)))))))))
    (fun p => ⟨p.1, p.2.1, p.2.2.1, p.2.2.2.1, p.2.2.2.2.1, p.2.2.2.2.2.1, p.2.2.2.2.2.2.1, p.2.2.2.2.2.2.2.1, p.2.2.2.2.2.2.2.2.1,
      p.2.2.2.2.2.2.2.2.2⟩)
    (fun t => (t.name, t.params, t.sender, t.expiry, t.hash, t.success, t.failure, t.validHash, t.invalidHash, t.succeeded))

/-- `ActiveEthTransaction`: the former fields and `replay_attempt`. Models `pallets/eth-bridge/src/types.rs:147-160`. -/
structure TxV4 where
  base : TxV3
  replay : Nat
deriving DecidableEq

/-- Codec of `ActiveEthTransaction`. -/
def txV4C : Codec TxV4 := iso (pair txV3C (uint 2)) (fun p => ⟨p.1, p.2⟩) (fun t => (t.base, t.replay))

/-- `ActiveRequestData` (`n = 116`, `τ = TxV4`), `LegacyActiveRequestData` (76, `TxV4`), `ActiveRequestDataV3` as the migration reads it
(116, `TxV3`). Models `pallets/eth-bridge/src/types.rs:111-118`, `migration.rs:33-43,65-71`. -/
structure Active (n : Nat) (τ : Type) where
  request : Request n
  msgHash : Bytes 32
  confirmations : List (Bytes 65)
  tx : Option τ
  lastUpdated : Nat
deriving DecidableEq

/-- Codec of the active request. -/
def activeC (n : Nat) {τ : Type} (c : Codec τ) : Codec (Active n τ) :=
  iso (pair (requestC n) (pair (fixed 32) (pair (vec 100 (fixed 65)) (pair (opt c) (uint 4)))))
    (fun p => ⟨p.1, p.2.1, p.2.2.1, p.2.2.2.1, p.2.2.2.2⟩)
    (fun a => (a.request, a.msgHash, a.confirmations, a.tx, a.lastUpdated))

/-- Codec of the request queue (`MaxQueuedTxRequests = 100`). -/
def queueC (n : Nat) : Codec (List (Request n)) := vec 100 (requestC n)

/-- The active range of blocks before version 3, and afterwards with additional transactions. A set is modelled by the list of its
elements in order; `ValidEvents` by its number. Models `pallets/eth-bridge/src/migration.rs:19-24`, `types.rs:194-200`. -/
structure RangeV2 where
  start : Nat
  length : Nat
  partition : Nat
  filter : List UInt8
deriving DecidableEq

/-- `ActiveEthRange`. -/
structure RangeV3 where
  base : RangeV2
  additional : List (Bytes 32)
deriving DecidableEq

/-- Codec of the old range (the events filter holds at most 20 kinds). -/
def rangeV2C : Codec RangeV2 :=
  iso (pair (uint 4) (pair (uint 4) (pair (uint 2) (bytes 20)))) (fun p => ⟨p.1, p.2.1, p.2.2.1, p.2.2.2⟩)
    (fun r => (r.start, r.length, r.partition, r.filter))

/-- Codec of the range. -/
def rangeV3C : Codec RangeV3 := iso (pair rangeV2C (vec 16 (fixed 32))) (fun p => ⟨p.1, p.2⟩) (fun r => (r.base, r.additional))

/-! ### Migrations of the bridge -/

/-- `StorageValue::translate` with a function of the old value: if the bytes do not decode, they stay as they are. -/
def translate {α β : Type} (old : Codec α) (new : Codec β) (f : α → β) (stored : Option (List UInt8)) : Option (List UInt8) :=
  match stored with
  | none => none
  | some bs =>
    match old.dec bs with
    | none => some bs
    | some (v, _) => some (new.enc (f v))

/-- The bridge's storage. -/
structure Bridge where
  version : Nat
  rangeSize : Nat
  range : Option (List UInt8)
  active : Option (List UInt8)
  queue : Option (List UInt8)

/-- In-code `STORAGE_VERSION`. Models `pallets/eth-bridge/src/lib.rs:155`. -/
def bridgeVersion : Nat := 5

/-- `migrate_to_v3`: `take` of bytes that do not decode leaves them. Models `pallets/eth-bridge/src/migration.rs:183-200`. -/
def migrateToV3 (s : Bridge) : Bridge :=
  { s with range := translate rangeV2C rangeV3C (fun r => ⟨r, []⟩) s.range, version := 3 }

/-- `migrate_to_v4`. Models `pallets/eth-bridge/src/migration.rs:202-248`. -/
def migrateToV4 (s : Bridge) : Bridge :=
  { s with
    active := translate (activeC 116 txV3C) (activeC 116 txV4C)
      (fun a => ⟨a.request, a.msgHash, a.confirmations, a.tx.map (fun t => ⟨t, 0⟩), a.lastUpdated⟩) s.active
    version := bridgeVersion }

/-- `resize_lower_params_to_v5`: zeros appended. Models `pallets/eth-bridge/src/migration.rs:262-269`. -/
def resize (p : Bytes 76) : Bytes 116 := (p ++ (Vector.replicate 40 0 : Bytes 40) : Bytes (76 + 40))

/-- Translation of a request. Models `pallets/eth-bridge/src/migration.rs:278-295,330-347`. -/
def resizeRequest : Request 76 → Request 116
  | .send r => .send ⟨r.txId, r.name, r.params, r.caller⟩
  | .lower r => .lower ⟨r.lowerId, resize r.params, r.caller⟩

/-- `migrate_to_v5`. Models `pallets/eth-bridge/src/migration.rs:250-260,271-365`. -/
def migrateToV5 (s : Bridge) : Bridge :=
  { s with
    active := translate (activeC 76 txV4C) (activeC 116 txV4C)
      (fun a => ⟨resizeRequest a.request, a.msgHash, a.confirmations, a.tx, a.lastUpdated⟩) s.active
    queue := translate (queueC 76) (queueC 116) (fun q => q.map resizeRequest) s.queue
    version := bridgeVersion }

/-- `EthBridgeMigrations::on_runtime_upgrade`; the stored version is read once, at the start.
Models `pallets/eth-bridge/src/migration.rs:95-126`. -/
def bridgeUpgrade (s : Bridge) : Bridge :=
  let onchain := s.version
  let s := if s.rangeSize = 0 then { s with rangeSize := 20 } else s
  let s := if onchain < 3 then migrateToV3 s else s
  let s := if onchain < 4 then migrateToV4 s else s
  if onchain ≤ 4 then migrateToV5 s else s

/-- `ActiveRequest::get`, with the runtime's types. -/
def Bridge.getActive (s : Bridge) : Option (Active 116 TxV4) := s.active.bind (fun bs => ((activeC 116 txV4C).dec bs).map (·.1))

/-- `RequestQueue::get`. -/
def Bridge.getQueue (s : Bridge) : Option (List (Request 116)) := s.queue.bind (fun bs => ((queueC 116).dec bs).map (·.1))

/-- `ActiveEthereumRange::get`. -/
def Bridge.getRange (s : Bridge) : Option RangeV3 := s.range.bind (fun bs => (rangeV3C.dec bs).map (·.1))

/-! ### Migrations of the token manager -/

/-- `LowerProofData` and its legacy form. Models `pallets/token-manager/src/lib.rs:1202-1205`, `migration.rs:28-32`. -/
structure Proof (n : Nat) where
  params : Bytes n
  data : List UInt8
deriving DecidableEq

/-- Codec of `LowerProofData` (`LowerDataLimit = 10000`). -/
def proofC (n : Nat) : Codec (Proof n) := iso (pair (fixed n) (bytes 10000)) (fun p => ⟨p.1, p.2⟩) (fun p => (p.params, p.data))

/-- `StorageMap::translate`: entries that do not decode are skipped. -/
def translateMap {α β : Type} (old : Codec α) (new : Codec β) (f : α → β) (m : List (Nat × List UInt8)) : List (Nat × List UInt8) :=
  m.map fun e => match old.dec e.2 with
    | none => e
    | some (v, _) => (e.1, new.enc (f v))

/-- The token manager's storage as far as migrations touch it. -/
structure Tokens where
  version : Nat
  period : Nat
  failed : List (Nat × List UInt8)
  pending : List (Nat × List UInt8)
  ready : List (Nat × List UInt8)

/-- `set_lower_schedule_period`. Models `pallets/token-manager/src/migration.rs:40-61`. -/
def setPeriod (s : Tokens) : Tokens := { s with period := 3275, version := 2 }

/-- `translate_lower_data`. Models `pallets/token-manager/src/migration.rs:34-38,63-104`. -/
def translateLowers (s : Tokens) : Tokens :=
  { s with
    failed := translateMap (fixed 76) (fixed 116) resize s.failed
    pending := translateMap (fixed 76) (fixed 116) resize s.pending
    ready := translateMap (proofC 76) (proofC 116) (fun p => ⟨resize p.params, p.data⟩) s.ready
    version := 2 }

/-- `SetLowerSchedulePeriod::on_runtime_upgrade`. Models `pallets/token-manager/src/migration.rs:106-133`. -/
def tokensUpgrade (s : Tokens) : Tokens :=
  let onchain := s.version
  let s := if onchain < 1 then setPeriod s else s
  if onchain < 2 then translateLowers s else s

/-- An entry of one of the maps, with the runtime's types. -/
def lookup {α : Type} (c : Codec α) (m : List (Nat × List UInt8)) (id : Nat) : Option α :=
  (m.find? (fun e => e.1 == id)).bind (fun e => (c.dec e.2).map (·.1))

/-! ### Migration of the validators manager -/

/-- `EthereumPublicKeys` (Ethereum key, account) and `AccountIdToEthereumKeys` (key by account). -/
structure Keys where
  version : Nat
  keys : List (Nat × Nat)
  reverse : Nat → Option Nat

/-- `ValidatorsManagerMigrations::on_runtime_upgrade`: only at version 1.
Models `pallets/validators-manager/src/migration.rs:12-34,58-74`. -/
def keysUpgrade (s : Keys) : Keys :=
  if s.version = 1 then
    { s with reverse := s.keys.foldl (fun r e => fun a => if a = e.2 then some e.1 else r a) s.reverse, version := 2 }
  else s

end Verif.Migration
