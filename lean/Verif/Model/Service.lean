import Verif.Model.EventCheck
import Verif.Model.Lower

/-!
# The node's external service: signing and sending to Ethereum

Models `client/external-service/src/lib.rs`, `keystore_utils.rs` and `web3_utils.rs`: the HTTP service on the node's own machine that
holds the author's Ethereum key. Ethereum's answers are inputs of each request, the log is ghost.
-/

namespace Verif.Service

open Verif.EventCheck (Out decodeVec)
open Verif.Calldata (hexDecode hexEncode)

/-- `MAX_BODY_SIZE`. Models `client/external-service/src/lib.rs:40`. -/
def maxBodySize : Nat := 100000

/-- The keystore: the files of its directory (name, and content when it is a JSON string) and the node's sr25519 keys of type `avnk`. -/
structure Keystore where
  files : List (List UInt8 × Option (List UInt8))
  avnKeys : List Nat

/-- Signature schemes. `srVerify key message signature`; `validSecret`: `SecretKey::from_slice` succeeds. -/
structure Crypto where
  srVerify : Nat → List UInt8 → List UInt8 → Bool
  validSecret : List UInt8 → Bool
  ecdsaSign : List UInt8 → List UInt8 → Bytes 65

/-- `ETHEREUM_SIGNING_KEY`, `ethk`. Models `primitives/avn-common/src/lib.rs:49`. -/
def ethk : List UInt8 := ascii "ethk"

/-- `raw_public_keys`. Models `client/external-service/src/keystore_utils.rs:54-81`. -/
def rawPublicKeys (files : List (List UInt8 × Option (List UInt8))) : List (List UInt8) :=
  files.filterMap fun f =>
    match hexDecode f.1 with
    | some h => if h.length > 4 then (if h.take 4 ≠ ethk then none else some (h.drop 4)) else none
    | none => none

/-- `get_eth_address_bytes_from_keystore`: exactly one key. Models `client/external-service/src/keystore_utils.rs:13-34`. -/
def ethAddress (files : List (List UInt8 × Option (List UInt8))) : Out (List UInt8) :=
  match rawPublicKeys files with
  | [a] => .ok a
  | _ => .err

/-- `key_phrase_by_type`: the content of the file of that key. Models `client/external-service/src/keystore_utils.rs:85-104`. -/
def keyPhrase (files : List (List UInt8 × Option (List UInt8))) (addr : List UInt8) : Out (List UInt8) :=
  match files.find? (fun f => f.1 == hexEncode ethk ++ hexEncode addr) with
  | some (_, some c) => .ok c
  | _ => .err

/-- `get_priv_key`: the first 32 bytes; slicing a shorter key panics.
Models `client/external-service/src/keystore_utils.rs:36-50`. -/
def privKey (files : List (List UInt8 × Option (List UInt8))) (addr : List UInt8) : Out (List UInt8) :=
  (keyPhrase files addr).bind fun c =>
    match hexDecode c with
    | none => .err
    | some k => if k.length < 32 then .panic else .ok (k.take 32)

/-- White space removed by `trim` (ASCII; HTTP header values contain no other). -/
def isSpace (b : UInt8) : Bool := b.toNat == 32 || (9 ≤ b.toNat && b.toNat ≤ 13)

/-- `str::trim`. -/
def trim (s : List UInt8) : List UInt8 := ((s.dropWhile isSpace).reverse.dropWhile isSpace).reverse

/-- `decode_from_http_data::<sr25519::Signature>`: 64 bytes in hex, trailing bytes ignored.
Models `primitives/avn-common/src/http_data_codec/mod.rs:18-21,28-31`. -/
def decodeToken (s : List UInt8) : Option (List UInt8) :=
  match hexDecode (trim s) with
  | none => none
  | some b => if b.length < 64 then none else some (b.take 64)

/-- `authenticate_token`. Models `client/external-service/src/keystore_utils.rs:106-119`. -/
def authenticate (c : Crypto) (ks : Keystore) (msg token : List UInt8) : Bool := ks.avnKeys.any (fun k => c.srVerify k msg token)

/-- `validate_authorisation_token`; `true` = `Ok`. Models `client/external-service/src/lib.rs:504-530`. -/
def authorised (c : Crypto) (ks : Keystore) (header : Option (List UInt8)) (msg : List UInt8) : Bool :=
  match header with
  | none => false
  | some h =>
    match decodeToken (trim h) with
    | none => false
    | some t => authenticate c ks msg t

/-- `EthTransaction`. Models `primitives/avn-common/src/lib.rs:83-88`. -/
structure EthTx where
  sender : Bytes 32
  to : Addr
  data : List UInt8
  block : Option Nat
deriving DecidableEq, Repr

/-- SCALE encoding of `EthTransaction` (what the runtime posts, `pallets/eth-bridge/src/eth.rs:331-334`). -/
def EthTx.encode (t : EthTx) : List UInt8 :=
  t.sender.toList ++ (t.to.toList ++ (scaleBytes t.data ++ (match t.block with | none => [0] | some b => 1 :: leBytes 4 b)))

/-- SCALE decoding of `EthTransaction`; trailing bytes are ignored. -/
def EthTx.decode (bs : List UInt8) : Option EthTx := do
  let sender ← Lower.toBytes? 32 (bs.take 32)
  let to ← Lower.toBytes? 20 ((bs.drop 32).take 20)
  let (data, rest) ← decodeVec (bs.drop 52)
  match rest with
  | [] => none
  | b :: rest =>
    if b = 0 then some ⟨sender, to, data, none⟩
    else if b = 1 then (if rest.length < 4 then none else some ⟨sender, to, data, some (leVal (rest.take 4))⟩)
    else none

/-- What is authorised by the token of a `send` request: `(&from, &to, &data).encode()`.
Models `client/external-service/src/lib.rs:244`, `pallets/eth-bridge/src/eth.rs:291-294`. -/
def EthTx.proofData (t : EthTx) : List UInt8 := t.sender.toList ++ (t.to.toList ++ scaleBytes t.data)

/-- Errors of the Ethereum node, as far as they are told apart: "nonce too low" (`error_due_to_low_nonce`), other RPC errors,
anything else. Models `client/external-service/src/lib.rs:146-156,260-281`. -/
inductive EthErr where
  | lowNonce | rpc | other
deriving DecidableEq, Repr

/-- A raw transaction handed to the Ethereum node: signed with `secret`, no value. -/
structure Submission where
  secret : List UInt8
  nonce : Nat
  to : Addr
  data : List UInt8
  gas : Nat
  chain : Nat
deriving DecidableEq, Repr

/-- Answers of the Ethereum node to the calls of one attempt: transaction count, gas estimate, chain id, what signing asks for
(gas price), and what it says to a raw transaction. -/
structure Answers where
  count : Except EthErr Nat
  gas : Except EthErr Nat
  chain : Except EthErr Nat
  price : Except EthErr Nat
  send : Submission → Except EthErr Hash

/-- Ghost log: signatures given out, transactions handed to the Ethereum node and its answer. -/
inductive Obs where
  | signed (secret digest : List UInt8) (sig : Bytes 65)
  | submitted (tx : Submission) (answer : Except EthErr Hash)

/-- The service: is the web3 connection set up, and the cached nonce. -/
structure State where
  web3 : Bool
  nonce : Option Nat
  log : List Obs

/-- `get_nonce`: the cached nonce, or Ethereum's transaction count (`latest` block) when there is none or an update is forced; the low
64 bits. Models `client/external-service/src/web3_utils.rs:31-54,76-86`. -/
def getNonce (nonce : Option Nat) (addr : List UInt8) (force : Bool) (count : Except EthErr Nat) : Except EthErr Nat :=
  match nonce, force with
  | some n, false => .ok n
  | _, _ => if addr.length ≠ 20 then .error .other else count.map (· % pow64)

/-- `send_tx`: build, sign and hand over a raw transaction; `H160::from_slice` of an address that is not 20 bytes long panics. The
cached nonce is set as soon as it is known.
Models `client/external-service/src/lib.rs:158-171`, `web3_utils.rs:88-112,132-158,184-193`. -/
def sendTx (s : State) (c : Crypto) (t : EthTx) (addr secret : List UInt8) (a : Answers) : State × Out (Except EthErr Hash) :=
  match getNonce s.nonce addr false a.count with
  | .error e => (s, .ok (.error e))
  | .ok n =>
    let s1 := { s with nonce := some n }
    if addr.length ≠ 20 then (s1, .panic)
    else match a.gas, a.chain with
      | .error e, _ => (s1, .ok (.error e))
      | .ok _, .error e => (s1, .ok (.error e))
      | .ok gas, .ok chain =>
        if c.validSecret secret = false then (s1, .ok (.error .other))
        else match a.price with
          | .error e => (s1, .ok (.error e))
          | .ok _ =>
            let tx : Submission := ⟨secret, n, t.to, t.data, gas, chain⟩
            ({ s1 with log := s1.log ++ [.submitted tx (a.send tx)] }, .ok (a.send tx))

/-- `increment_nonce` (the nonce is far from `u64::MAX`). Models `client/external-service/src/web3_utils.rs:56-60`. -/
def incrementNonce (s : State) : State := { s with nonce := s.nonce.map (· + 1) }

/-- Answer of the service: the body of a successful response. -/
abbrev Response := Out (List UInt8)

/-- `eth/sign_hashed_data`: `H256::from_slice` panics on any other length than 32, before the token is looked at.
Models `client/external-service/src/lib.rs:388-413,490-502`. -/
def signHashed (c : Crypto) (s : State) (body : List UInt8) (auth : Option (List UInt8)) (ks : Keystore) : State × Response :=
  if body.length > maxBodySize then (s, .err)
  else match hexDecode body with
    | none => (s, .err)
    | some msg =>
      if msg.length ≠ 32 then (s, .panic)
      else if authorised c ks auth msg = false then (s, .err)
      else match ethAddress ks.files with
        | .err => (s, .err)
        | .panic => (s, .panic)
        | .ok addr =>
          match privKey ks.files addr with
          | .err => (s, .err)
          | .panic => (s, .panic)
          | .ok secret =>
            if c.validSecret secret = false then (s, .err)
            else
              let sig := c.ecdsaSign secret msg
              ({ s with log := s.log ++ [.signed secret msg sig] }, .ok (hexEncode sig.toList))

/-- The part of `eth/send` with the lock held: one attempt, a second one with a fresh nonce if the first nonce was too low.
Models `client/external-service/src/lib.rs:247-292`. -/
def sendLocked (c : Crypto) (s : State) (t : EthTx) (ks : Keystore) (a1 : Answers) (recount : Except EthErr Nat) (a2 : Answers) :
    State × Response :=
  if s.web3 = false then (s, .err)
  else match ethAddress ks.files with
    | .err => (s, .err)
    | .panic => (s, .panic)
    | .ok addr =>
      match privKey ks.files addr with
      | .err => (s, .err)
      | .panic => (s, .panic)
      | .ok secret =>
        match sendTx s c t addr secret a1 with
        | (s1, .panic) => (s1, .panic)
        | (s1, .err) => (s1, .err)
        | (s1, .ok (.ok h)) => (incrementNonce s1, .ok (hexEncode h.toList))
        | (s1, .ok (.error .lowNonce)) =>
          match getNonce s1.nonce addr true recount with
          | .error _ => (s1, .err)
          | .ok n =>
            match sendTx { s1 with nonce := some n } c t addr secret a2 with
            | (s2, .panic) => (s2, .panic)
            | (s2, .err) => (s2, .err)
            | (s2, .ok (.ok h)) => (incrementNonce s2, .ok (hexEncode h.toList))
            | (s2, .ok (.error _)) => (s2, .err)
        | (s1, .ok (.error _)) => (s1, .err)

/-- `eth/send`; `busy` = another request holds the web3 lock (`try_lock`).
Models `client/external-service/src/lib.rs:227-296`. -/
def send (c : Crypto) (s : State) (body : List UInt8) (auth : Option (List UInt8)) (ks : Keystore) (busy : Bool) (a1 : Answers)
    (recount : Except EthErr Nat) (a2 : Answers) : State × Response :=
  if body.length > maxBodySize then (s, .err)
  else match EthTx.decode body with
    | none => (s, .err)
    | some t =>
      if authorised c ks auth t.proofData = false then (s, .err)
      else if busy then (s, .err)
      else sendLocked c s t ks a1 recount a2

/-- `eth/view`: no token needed, a read-only call. Models `client/external-service/src/lib.rs:298-334`. -/
def view (s : State) (body : List UInt8) (busy : Bool) (call : Except EthErr (List UInt8)) : State × Response :=
  if body.length > maxBodySize then (s, .err)
  else match EthTx.decode body with
    | none => (s, .err)
    | some _ =>
      if busy then (s, .err)
      else if s.web3 = false then (s, .err)
      else match call with
        | .error _ => (s, .err)
        | .ok r => (s, .ok (hexEncode r))

/-- `eth/query`: no token needed; `answer` stands for Ethereum's answers put together.
Models `client/external-service/src/lib.rs:336-375`. -/
def query (s : State) (body : List UInt8) (busy : Bool) (answer : Except EthErr (List UInt8)) : State × Response :=
  if body.length > maxBodySize then (s, .err)
  else match EthTx.decode body with
    | none => (s, .err)
    | some t =>
      if t.data.length < 33 ∨ 1 < (t.data.getD 32 0).toNat then (s, .err)
      else if busy then (s, .err)
      else if s.web3 = false then (s, .err)
      else match answer with
        | .error _ => (s, .err)
        | .ok r => (s, .ok r)

/-- One request, or a restart of the node (`web3` = the connection could be set up; `lib.rs:54-80`, `web3_utils.rs:24-27`). -/
inductive Op where
  | sign (body : List UInt8) (auth : Option (List UInt8)) (ks : Keystore)
  | send (body : List UInt8) (auth : Option (List UInt8)) (ks : Keystore) (busy : Bool) (a1 : Answers) (recount : Except EthErr Nat)
      (a2 : Answers)
  | view (body : List UInt8) (busy : Bool) (call : Except EthErr (List UInt8))
  | query (body : List UInt8) (busy : Bool) (answer : Except EthErr (List UInt8))
  | restart (web3 : Bool)

/-- What a request does and how it is answered. -/
def handle (c : Crypto) (s : State) : Op → State × Response
  | .sign body auth ks => signHashed c s body auth ks
  | .send body auth ks busy a1 r a2 => send c s body auth ks busy a1 r a2
  | .view body busy call => view s body busy call
  | .query body busy answer => query s body busy answer
  | .restart w => ({ s with web3 := w, nonce := none }, .ok [])

/-- A history of requests. -/
def run (c : Crypto) (s : State) (ops : List Op) : State := ops.foldl (fun s op => (handle c s op).1) s

end Verif.Service
