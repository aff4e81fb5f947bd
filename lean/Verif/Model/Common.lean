import Verif.Model.Encoding

/-!
# Signature verification shared by the pallets
primitives/avn-common/src/lib.rs
-/

namespace Verif

/-- `MultiSignature` (`sp_runtime`, used at primitives/avn-common/src/lib.rs:331-353) with its raw bytes; `ed25519` is the
scheme the project does not support. -/
inductive Sig where
  | ed25519 (raw : Bytes 64)
  | sr25519 (raw : Bytes 64)
  | ecdsa (raw : Bytes 65)
deriving DecidableEq

/-- Cryptographic primitives, arbitrary: sr25519 verification `signature.verify(msg, signer)`, and ECDSA recovery of
the account `keccak_256(eth_address)` (primitives/avn-common/src/lib.rs:334-345). -/
structure Crypto where
  verifySr : (signer : Acct) → (raw : Bytes 64) → (msg : List UInt8) → Bool
  recoverEcdsa : (raw : Bytes 65) → (msg : List UInt8) → Option Acct

/-- primitives/avn-common/src/lib.rs:103-108 `Proof`. -/
structure Proof where
  signer : Acct
  relayer : Acct
  signature : Sig
deriving DecidableEq

/-- `OPEN_BYTES_TAG` / `CLOSE_BYTES_TAG` (primitives/avn-common/src/lib.rs:44-45). -/
def wrapBytes (payload : List UInt8) : List UInt8 := ascii "<Bytes>" ++ payload ++ ascii "</Bytes>"

/-- primitives/avn-common/src/lib.rs:285-306 `verify_sr_signature`. -/
def verifySrSignature (c : Crypto) (signer : Acct) (raw : Bytes 64) (payload : List UInt8) : Bool :=
  c.verifySr signer raw (wrapBytes payload) || c.verifySr signer raw payload

/-- primitives/avn-common/src/lib.rs:308-370 `verify_multi_signature` / `verify_signature` (production features). The
recovery error path logs and returns `Err`, as does an unsupported scheme. -/
def verifySignature (c : Crypto) (p : Proof) (payload : List UInt8) : Bool :=
  match p.signature with
  | .sr25519 raw => verifySrSignature c p.signer raw payload
  | .ecdsa raw => c.recoverEcdsa raw payload == some p.signer
  | .ed25519 _ => false

end Verif
