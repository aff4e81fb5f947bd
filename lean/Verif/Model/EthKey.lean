import Verif.Lemmas.Encoding

/-!
# Ethereum public keys

`primitives/avn-common/src/eth_key_actions.rs`: the chain stores a validator's Ethereum key compressed (33 bytes) and sends it to the
bridge contract uncompressed (64 bytes).

Simplified: `libsecp256k1::PublicKey::parse_slice` is a dependency. It is modelled after its algorithm (`parse_compressed`, which is
`Field::set_b32`, `Affine::set_xo_var`, `Field::sqrt` and `Affine::is_valid_var`), with field elements as numbers below the field prime
and not as limbs. The square root is the power `(p + 1) / 4`, as there. The two kinds of error are one `none`.
-/

namespace Verif.EthKey

/-- The prime of the secp256k1 field (`libsecp256k1`, not in /repo). -/
def fieldPrime : Nat := 2 ^ 256 - 2 ^ 32 - 977

/-- `acc * a ^ e` modulo `m`, by repeated squaring; the first argument bounds the number of binary digits of `e`. It is the
addition chain of `Field::sqrt` (`libsecp256k1`, not in /repo), which computes the same power. -/
def powMod (m : Nat) : Nat → Nat → Nat → Nat → Nat
  | 0, _, _, acc => acc % m
  | f + 1, a, e, acc => powMod m f (a * a % m) (e / 2) (if e % 2 = 1 then acc * a % m else acc)

/-- `c` to the power `(p + 1) / 4` (`Field::sqrt` of `libsecp256k1`, not in /repo). -/
def root (c : Nat) : Nat := powMod fieldPrime 256 c ((fieldPrime + 1) / 4) 1

/-- The `y` coordinate with the asked parity: `y`, or its negation (`Affine::set_xo_var` of `libsecp256k1`, not in /repo). -/
def withParity (odd : Bool) (y : Nat) : Nat := if decide (y % 2 = 1) = odd then y else (fieldPrime - y) % fieldPrime

/-- `decompress_eth_public_key` (`primitives/avn-common/src/eth_key_actions.rs:3-19`, used at
`pallets/validators-manager/src/lib.rs:594-595,653-654` and `pallets/authors-manager/src/lib.rs:508-509,568-569`): the two coordinates of
the point, without the prefix `04`, or an error. The first byte must be 2 or 3, the next 32 are `x`. -/
def decompress (k : Bytes 33) : Option (Bytes 64) :=
  let tag := k[0]
  let x := beVal (k.toList.drop 1)
  if tag ≠ 2 ∧ tag ≠ 3 then none
  else if fieldPrime ≤ x then none
  else
    let c := (x ^ 3 + 7) % fieldPrime
    if root c * root c % fieldPrime ≠ c then none
    else some ⟨(beBytes 32 x ++ beBytes 32 (withParity (tag == 3) (root c))).toArray, by simp⟩

/-- `compress_eth_public_key` (`primitives/avn-common/src/eth_key_actions.rs:23-35`): 2 or 3 by the parity of the last byte, then the
first 32 bytes. -/
def compress (m : Bytes 64) : Bytes 33 :=
  ⟨((if m[63] % 2 = 0 then 2 else 3) :: m.toList.take 32).toArray, by simp⟩

end Verif.EthKey
