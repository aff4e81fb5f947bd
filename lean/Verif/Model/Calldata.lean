import Verif.Model.Eip712

/-!
# Calldata sent to Ethereum, and the checks of a sent transaction
pallets/eth-bridge/src/eth.rs, with the ABI encoder of the `ethabi` crate (13.0.0) for the six types used.

`keccak` is an arbitrary function into 32 bytes, `validUtf8` an arbitrary predicate.
-/

namespace Verif.Calldata

open Verif.Eip712 (Param Out word addrWord digits)

/-- The parameter types known to the bridge. Models `pallets/eth-bridge/src/eth.rs:235-246`. -/
inductive Ty where
  | bytes
  | bytes32
  | uint32
  | uint128
  | uint256
  | address
deriving DecidableEq, Repr

/-- The canonical name in a function signature (`Writer::write` of `ethabi`). -/
def Ty.name : Ty → List UInt8
  | .bytes => ascii "bytes"
  | .bytes32 => ascii "bytes32"
  | .uint32 => ascii "uint32"
  | .uint128 => ascii "uint128"
  | .uint256 => ascii "uint256"
  | .address => ascii "address"

/-- `to_param_type`. Models `pallets/eth-bridge/src/eth.rs:235-246`, names at `primitives/avn-common/src/lib.rs:61-66`. -/
def toTy (key : List UInt8) : Option Ty :=
  if key = ascii "bytes" then some .bytes
  else if key = ascii "bytes32" then some .bytes32
  else if key = ascii "uint32" then some .uint32
  else if key = ascii "uint128" then some .uint128
  else if key = ascii "uint256" then some .uint256
  else if key = ascii "address" then some .address
  else none

/-- A value to encode (`ethabi::Token`). -/
inductive Tok where
  | bytes (b : List UInt8)
  | fixed (b : Bytes 32)
  | uint (n : Nat)
  | addr (a : Addr)
deriving DecidableEq

/-- `U256::from_dec_str`: decimal digits only (none is zero), no overflow. -/
def fromDec (bs : List UInt8) : Option Nat :=
  match digits bs 0 with
  | some n => if n < 2 ^ 256 then some n else none
  | none => none

/-- `to_token_type`; `Address::from_slice` panics on a wrong length. Models `pallets/eth-bridge/src/eth.rs:251-271`. -/
def toTok (t : Ty) (v : List UInt8) : Out Tok :=
  match t with
  | .bytes => .ok (.bytes v)
  | .bytes32 => match Lower.toBytes? 32 v with
    | some b => .ok (.fixed b)
    | none => .err
  | .address => match Lower.toBytes? 20 v with
    | some a => .ok (.addr a)
    | none => .panic
  | _ => match fromDec v with
    | some n => .ok (.uint n)
    | none => .err

/-- The tokens of the parameters, stopping at the first failure. Models `pallets/eth-bridge/src/eth.rs:212-219`. -/
def tokens : List Param → Out (List Tok)
  | [] => .ok []
  | (t, v) :: rest => match toTy t with
    | none => .err
    | some ty => match toTok ty v with
      | .err => .err
      | .panic => .panic
      | .ok tok => match tokens rest with
        | .ok toks => .ok (tok :: toks)
        | e => e

/-- Bytes padded with zeros to whole words (`pad_fixed_bytes` of `ethabi`). -/
def pad (b : List UInt8) : List UInt8 := b ++ List.replicate ((32 - b.length % 32) % 32) 0

/-- The dynamic part of a token (`ethabi`'s `Mediate::Prefixed`). -/
def Tok.tail : Tok → List UInt8
  | .bytes b => word b.length ++ pad b
  | _ => []

/-- The head of a token, given the offset of its dynamic part. -/
def Tok.head : Tok → Nat → List UInt8
  | .bytes _, off => word off
  | .fixed b, _ => b.toList
  | .uint n, _ => word n
  | .addr a, _ => addrWord a

/-- The heads of the tokens; `off` is where the next dynamic part goes. -/
def heads : List Tok → Nat → List UInt8
  | [], _ => []
  | t :: ts, off => t.head off ++ heads ts (off + t.tail.length)

/-- The dynamic parts in order. -/
def tails (ts : List Tok) : List UInt8 := (ts.map Tok.tail).flatten

/-- `ethabi::encode`: heads of one word each, then the dynamic parts. -/
def encode (ts : List Tok) : List UInt8 := heads ts (32 * ts.length) ++ tails ts

/-- Names joined by commas. -/
def joinNames : List Ty → List UInt8
  | [] => []
  | [t] => t.name
  | t :: ts => t.name ++ (ascii "," ++ joinNames ts)

/-- The function signature `name(type,...)`. -/
def signature (name : List UInt8) (tys : List Ty) : List UInt8 := name ++ (ascii "(" ++ (joinNames tys ++ ascii ")"))

variable (keccak : List UInt8 → Hash) (validUtf8 : List UInt8 → Bool)

/-- `abi_encode_function`. Unknown type names are dropped from the inputs, but make the tokens fail. The type check of `encode_input`
always passes (each token was made for its type). Models `pallets/eth-bridge/src/eth.rs:201-233`. -/
def abiEncodeFunction (name : List UInt8) (ps : List Param) : Out (List UInt8) :=
  match tokens ps with
  | .panic => .panic
  | .err => .err
  | .ok toks =>
    if validUtf8 name = false then .err
    else .ok ((keccak (signature name (ps.filterMap (fun p => toTy p.1)))).toList.take 4 ++ encode toks)

/-- `encode_confirmations`. Models `pallets/eth-bridge/src/eth.rs:157-165`. -/
def encodeConfirmations (confs : List (Bytes 65)) : List UInt8 := (confs.map Vector.toList).flatten

/-- `generate_send_calldata`: the (extended) parameters and the confirmations. Models `pallets/eth-bridge/src/eth.rs:167-175`. -/
def sendCalldata (name : List UInt8) (ps : List Param) (confs : List (Bytes 65)) : Out (List UInt8) :=
  abiEncodeFunction keccak validUtf8 name (ps ++ [(ascii "bytes", encodeConfirmations confs)])

/-- `generate_corroborate_calldata`. Models `pallets/eth-bridge/src/eth.rs:177-187`. -/
def corroborateCalldata (txId expiry : Nat) : Out (List UInt8) :=
  abiEncodeFunction keccak validUtf8 (ascii "corroborate")
    [(ascii "uint32", ascii (toString txId)), (ascii "uint256", ascii (toString expiry))]

/-- `generate_encoded_lower_proof`. Models `pallets/eth-bridge/src/eth.rs:189-199`. -/
def encodedLowerProof (params : List UInt8) (confs : List (Bytes 65)) : List UInt8 := params ++ encodeConfirmations confs

/-! ### What the bridge makes of Ethereum's answers -/

/-- One hex digit (`hex::encode`, lower case). -/
def hexDigit (n : Nat) : UInt8 := if n < 10 then UInt8.ofNat (48 + n) else UInt8.ofNat (87 + n)

/-- `hex::encode`. -/
def hexEncode : List UInt8 → List UInt8
  | [] => []
  | b :: bs => hexDigit (b.toNat / 16) :: hexDigit (b.toNat % 16) :: hexEncode bs

/-- Value of a hex digit, either case (`hex::decode`). -/
def hexVal (b : UInt8) : Option Nat :=
  if 48 ≤ b.toNat ∧ b.toNat ≤ 57 then some (b.toNat - 48)
  else if 97 ≤ b.toNat ∧ b.toNat ≤ 102 then some (b.toNat - 87)
  else if 65 ≤ b.toNat ∧ b.toNat ≤ 70 then some (b.toNat - 55)
  else none

/-- `hex::decode`. -/
def hexDecode : List UInt8 → Option (List UInt8)
  | [] => some []
  | [_] => none
  | a :: b :: rest => do
    let x ← hexVal a
    let y ← hexVal b
    let r ← hexDecode rest
    some (UInt8.ofNat (16 * x + y) :: r)

/-- `process_tx_hash`: the answer to `eth/send`. Models `pallets/eth-bridge/src/eth.rs:338-350`. -/
def processTxHash (result : List UInt8) : Option Hash :=
  if result.length ≠ 64 then none
  else match hexDecode result with
    | none => none
    | some b => Lower.toBytes? 32 b

/-- `process_corroborate_result`: the answer to `eth/view`, the last byte of a word as an `i8`.
Models `pallets/eth-bridge/src/eth.rs:352-362`. -/
def processCorroborateResult (result : List UInt8) : Option Int :=
  match hexDecode result with
  | none => none
  | some b => if b.length ≠ 32 then none else
      some (let v := (b.getD 31 0).toNat; if v < 128 then (v : Int) else (v : Int) - 256)

/-- `check_tx_status`, for calldata that could be generated. `none` = an error; the inner option is the answer.
Models `pallets/eth-bridge/src/eth.rs:121-138`. -/
def checkTxStatus (result : Option Int) : Option (Option Bool) :=
  match result with
  | none => none
  | some r => if r = 0 then some none else if r = 1 then some (some true) else if r = -1 then some (some false) else none

/-- `check_tx_hash`: `query` is the call data and number of confirmations Ethereum reports for the hash (`none` = the query failed),
`expected` the calldata of `generate_send_calldata`. `none` = an error. Models `pallets/eth-bridge/src/eth.rs:140-155`. -/
def checkTxHash (ethTxHash : Hash) (query : Option (List UInt8 × Nat)) (expected : Out (List UInt8)) : Option (Bool × Option Nat) :=
  if ethTxHash ≠ Vector.replicate 32 0 then
    match query with
    | none => none
    | some (callData, confs) => match expected with
      | .ok e => some (decide (hexEncode e = hexEncode callData), some confs)
      | _ => none
  else some (false, none)

/-- `corroborate`: what to report about a transaction, if anything. `minConfs` = `MinEthBlockConfirmation`.
Models `pallets/eth-bridge/src/eth.rs:100-119`. -/
def corroborate (minConfs : Nat) (view : Option Int) (ethTxHash : Hash) (query : Option (List UInt8 × Nat))
    (expected : Out (List UInt8)) : Option (Option Bool × Option Bool) :=
  match checkTxStatus view with
  | none => none
  | some none => some (none, none)
  | some (some status) => match checkTxHash ethTxHash query expected with
    | none => none
    | some (valid, confs) =>
      if valid = true ∧ confs.getD 0 < minConfs then some (none, none) else some (some status, some valid)

end Verif.Calldata
