import Verif.Model.Lower

/-!
# The messages authors sign for Ethereum: EIP-712 hashes
primitives/avn-common/src/eth/mod.rs

`keccak` is an arbitrary function into 32 bytes. `lossy` is `String::from_utf8_lossy` followed by taking the UTF-8 bytes (arbitrary; on
valid UTF-8 it is the identity).
-/

namespace Verif.Eip712

/-- A parameter: type name and value. -/
abbrev Param := List UInt8 × List UInt8

/-- Result of a function that may fail or panic. -/
inductive Out (α : Type) where
  | ok (a : α)
  | err
  | panic
deriving DecidableEq, Repr

/-- `EthBridgeInstance`, with the network given by its chain id. Models `primitives/avn-common/src/eth/mod.rs:32-56,72-80`. -/
structure Instance where
  chainId : Nat
  contract : Addr
  name : List UInt8
  version : List UInt8
  salt : Option Hash
deriving DecidableEq

/-- `EthBridgeInstance::is_valid`. Models `primitives/avn-common/src/eth/mod.rs:88-90`. -/
def Instance.valid (i : Instance) : Bool :=
  i.contract != Vector.replicate 20 0 && !i.name.isEmpty && !i.version.isEmpty

/-- The structs that are signed. Models the `sol!` blocks at `primitives/avn-common/src/eth/mod.rs:154-202`. -/
inductive Msg where
  | publishRoot (rootHash : Hash) (expiry t2TxId : Nat)
  | triggerGrowth (rewards avgStaked period expiry t2TxId : Nat)
  | addAuthor (t1PubKey : List UInt8) (t2PubKey : Hash) (expiry t2TxId : Nat)
  | removeAuthor (t2PubKey : Hash) (t1PubKey : List UInt8) (expiry t2TxId : Nat)
  | lower (d : Lower.LowerData)
deriving DecidableEq

/-- The EIP-712 type string of each struct (`SolStruct::eip712_encode_type`, generated by `sol!`).
Models `primitives/avn-common/src/eth/mod.rs:154-202`. -/
def Msg.typeString : Msg → List UInt8
  | .publishRoot .. => ascii "PublishRoot(bytes32 rootHash,uint256 expiry,uint32 t2TxId)"
  | .triggerGrowth .. => ascii "TriggerGrowth(uint256 rewards,uint256 avgStaked,uint32 period,uint256 expiry,uint32 t2TxId)"
  | .addAuthor .. => ascii "AddAuthor(bytes t1PubKey,bytes32 t2PubKey,uint256 expiry,uint32 t2TxId)"
  | .removeAuthor .. => ascii "RemoveAuthor(bytes32 t2PubKey,bytes t1PubKey,uint256 expiry,uint32 t2TxId)"
  | .lower .. => ascii "LowerData(address token,uint256 amount,address recipient,uint32 lowerId,bytes32 t2Sender,uint64 t2Timestamp)"

/-- A 32 byte word holding an unsigned integer. -/
def word (n : Nat) : List UInt8 := beBytes 32 n

/-- A 32 byte word holding an address. -/
def addrWord (a : Addr) : List UInt8 := List.replicate 12 0 ++ a.toList

variable (keccak : List UInt8 → Hash) (lossy : List UInt8 → List UInt8)

/-- `encodeData` of EIP-712: integers, `bytes32` and addresses as words, `bytes` hashed (`SolStruct::eip712_encode_data`, generated by
`sol!`). Models `primitives/avn-common/src/eth/mod.rs:154-202`. -/
def Msg.data : Msg → List UInt8
  | .publishRoot r e i => r.toList ++ (word e ++ word i)
  | .triggerGrowth r a p e i => word r ++ (word a ++ (word p ++ (word e ++ word i)))
  | .addAuthor k t e i => (keccak k).toList ++ (t.toList ++ (word e ++ word i))
  | .removeAuthor t k e i => t.toList ++ ((keccak k).toList ++ (word e ++ word i))
  | .lower d => addrWord d.token ++ (word d.amount ++ (addrWord d.recipient ++ (word d.lowerId ++ (d.t2Sender.toList ++ word d.t2Timestamp))))

/-- `hashStruct`. -/
def Msg.structHash (m : Msg) : Hash := keccak ((keccak m.typeString).toList ++ m.data keccak)

/-- The type string of the domain (`eip712_domain!` with name, version, chain id and verifying contract).
Models `primitives/avn-common/src/eth/mod.rs:93-107`. -/
def domainType : List UInt8 := ascii "EIP712Domain(string name,string version,uint256 chainId,address verifyingContract)"

/-- The domain separator; the salt is ignored. Models `primitives/avn-common/src/eth/mod.rs:93-107`. -/
def domainData (i : Instance) : List UInt8 :=
  (keccak domainType).toList ++ ((keccak (lossy i.name)).toList ++ ((keccak (lossy i.version)).toList ++
    (word i.chainId ++ addrWord i.contract)))

/-- `eip712_signing_hash`. Models `primitives/avn-common/src/eth/mod.rs:242-245`. -/
def signingHash (i : Instance) (m : Msg) : Hash :=
  keccak ([0x19, 0x01] ++ ((keccak (domainData keccak lossy i)).toList ++ (m.structHash keccak).toList))

/-! ### Parsing a request -/

/-- Decimal digits with an accumulator; `none` on any other byte. -/
def digits : List UInt8 → Nat → Option Nat
  | [], acc => some acc
  | b :: bs, acc => if 48 ≤ b.toNat ∧ b.toNat ≤ 57 then digits bs (10 * acc + (b.toNat - 48)) else none

/-- Drop one leading `+`. -/
def stripPlus : List UInt8 → List UInt8
  | [] => []
  | b :: bs => if b = 43 then bs else b :: bs

/-- `str::parse` for an unsigned integer below `bound`: an optional `+`, then at least one digit, no overflow. (Bytes that are not UTF-8 are
not digits either.) Models `parse_from_utf8`, `primitives/avn-common/src/eth/mod.rs:247-249`. -/
def parseUint (bound : Nat) (bs : List UInt8) : Option Nat :=
  if (stripPlus bs).isEmpty then none
  else match digits (stripPlus bs) 0 with
    | some n => if n < bound then some n else none
    | none => none

/-- The value of the `k`-th parameter. -/
def val (ps : List Param) (k : Nat) : List UInt8 := (ps.getD k ([], [])).2

/-- `extract_tx_id_and_expiry`, for at least two parameters. Models `primitives/avn-common/src/eth/mod.rs:256-266`. -/
def txIdAndExpiry (ps : List Param) : Option (Nat × Nat) := do
  let expiry ← parseUint pow64 (val ps (ps.length - 2))
  let txId ← parseUint pow32 (val ps (ps.length - 1))
  some (txId, expiry)

/-- The body of `create_function_confirmation_hash` up to the hash. `H256::from_slice` and `B256::from_slice` panic on a wrong length.
Models `primitives/avn-common/src/eth/mod.rs:136-152,251-332`. -/
def parseMsg (name : List UInt8) (ps : List Param) : Out Msg :=
  if name = ascii "publishRoot" then
    if ps.length ≠ 3 then .err
    else match Lower.toBytes? 32 (val ps 0) with
      | none => .panic
      | some root => match txIdAndExpiry ps with
        | none => .err
        | some (i, e) => .ok (.publishRoot root e i)
  else if name = ascii "triggerGrowth" then
    if ps.length ≠ 5 then .err
    else match parseUint pow128 (val ps 0), parseUint pow128 (val ps 1), parseUint pow32 (val ps 2), txIdAndExpiry ps with
      | some r, some a, some p, some (i, e) => .ok (.triggerGrowth r a p e i)
      | _, _, _, _ => .err
  else if name = ascii "addAuthor" then
    if ps.length ≠ 4 then .err
    else match Lower.toBytes? 32 (val ps 1) with
      | none => .panic
      | some t => match txIdAndExpiry ps with
        | none => .err
        | some (i, e) => .ok (.addAuthor (val ps 0) t e i)
  else if name = ascii "removeAuthor" then
    if ps.length ≠ 4 then .err
    else match Lower.toBytes? 32 (val ps 0) with
      | none => .panic
      | some t => match txIdAndExpiry ps with
        | none => .err
        | some (i, e) => .ok (.removeAuthor t (val ps 1) e i)
  else .err

/-- `create_function_confirmation_hash`. Models `primitives/avn-common/src/eth/mod.rs:251-332`. -/
def functionHash (i : Instance) (name : List UInt8) (ps : List Param) : Out Hash :=
  match parseMsg name ps with
  | .ok m => .ok (signingHash keccak lossy i m)
  | .err => .err
  | .panic => .panic

/-- `create_lower_proof_hash`. Models `primitives/avn-common/src/eth/mod.rs:232-240`. -/
def lowerHash (i : Instance) (params : List UInt8) : Option Hash :=
  (Lower.decodeLowerData params).map (fun d => signingHash keccak lossy i (.lower d))

/-! ### The requests made by the runtime -/

/-- The four calls of `BridgeInterface::publish` in the runtime: `Summary` (`pallets/summary/src/lib.rs:1339-1341`), `ParachainStaking`
(`pallets/parachain-staking/src/lib.rs:2436-2445`), `ValidatorsManager` (`pallets/validators-manager/src/lib.rs:600-606,659-666`). An
Ethereum key is the 64 byte decompressed one. -/
inductive Call where
  | publishRoot (root : Hash)
  | triggerGrowth (rewards avgStaked period : Nat)
  | addAuthor (key : Bytes 64) (account : Hash)
  | removeAuthor (account : Hash) (key : Bytes 64)
deriving DecidableEq

/-- Function name. Models `primitives/avn-common/src/eth/mod.rs:120-132`. -/
def Call.name : Call → List UInt8
  | .publishRoot .. => ascii "publishRoot"
  | .triggerGrowth .. => ascii "triggerGrowth"
  | .addAuthor .. => ascii "addAuthor"
  | .removeAuthor .. => ascii "removeAuthor"

/-- Parameters. Models the lines cited at `Call`. -/
def Call.params : Call → List Param
  | .publishRoot r => [(ascii "bytes32", r.toList)]
  | .triggerGrowth r a p => [(ascii "uint256", ascii (toString r)), (ascii "uint256", ascii (toString a)), (ascii "uint32", ascii (toString p))]
  | .addAuthor k t => [(ascii "bytes", k.toList), (ascii "bytes32", t.toList)]
  | .removeAuthor t k => [(ascii "bytes32", t.toList), (ascii "bytes", k.toList)]

end Verif.Eip712
