import Verif.Model.Basic

/-!
# Byte encodings

SCALE (`parity-scale-codec`) and big-endian encodings of the values which the pallets hash, sign or send to Ethereum.
-/

namespace Verif

/-- Fixed size byte arrays: `AccountId32` (`[u8; 32]`), `H160` (`[u8; 20]`), `H256` (`[u8; 32]`). Their SCALE encoding is
the bytes themselves, without a length prefix. -/
abbrev Bytes (n : Nat) := Vector UInt8 n

/-- `AccountId32`. -/
abbrev Acct := Bytes 32
/-- `H160`: an Ethereum address, also the runtime's `TokenId` (runtime/avn/src/lib.rs, `type TokenId = H160`). -/
abbrev Addr := Bytes 20
/-- `H256`. -/
abbrev Hash := Bytes 32

/-- Little-endian bytes of an unsigned integer of `k` bytes (SCALE encoding of `u32`, `u64`, `u128`; `to_le_bytes`). -/
def leBytes : Nat → Nat → List UInt8
  | 0, _ => []
  | k + 1, n => UInt8.ofNat (n % 256) :: leBytes k (n / 256)

/-- Big-endian bytes (`to_be_bytes`). -/
def beBytes (k n : Nat) : List UInt8 := (leBytes k n).reverse

/-- Value of little-endian bytes (`from_le_bytes`). -/
def leVal : List UInt8 → Nat
  | [] => 0
  | b :: bs => b.toNat + 256 * leVal bs

/-- Value of big-endian bytes (`from_be_bytes`). -/
def beVal (bs : List UInt8) : Nat := leVal bs.reverse

/-- SCALE `Compact<u32>`: the length prefix of `Vec<u8>`, `&[u8]`, `BoundedVec` (single, two and four byte modes; the
"big integer" mode is only reached at 2^30 and modelled with its one byte header and four bytes). -/
def compact (n : Nat) : List UInt8 :=
  if n < 64 then [UInt8.ofNat (n * 4)]
  else if n < 16384 then leBytes 2 (n * 4 + 1)
  else if n < 1073741824 then leBytes 4 (n * 4 + 2)
  else 3 :: leBytes 4 n

/-- SCALE encoding of a byte slice: compact length, then the bytes. -/
def scaleBytes (bs : List UInt8) : List UInt8 := compact bs.length ++ bs

/-- SCALE encoding of a `Vec` of already encodable items: compact length, then the items. -/
def scaleVec {α : Type} (enc : α → List UInt8) (xs : List α) : List UInt8 :=
  compact xs.length ++ (xs.map enc).flatten

/-- ASCII bytes of a literal (Rust `b"..."`). -/
def ascii (s : String) : List UInt8 := s.toList.map (fun c => UInt8.ofNat c.toNat)

end Verif
