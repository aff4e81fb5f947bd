import Verif.Model.Encoding

/-!
# Packed lower parameters
primitives/avn-common/src/eth/mod.rs
-/

namespace Verif.Lower

/-- The fields of a lower (primitives/avn-common/src/eth/mod.rs:193-202 `sol! struct LowerData`). -/
structure LowerData where
  token : Addr
  amount : Nat
  recipient : Addr
  lowerId : Nat
  t2Sender : Hash
  t2Timestamp : Nat
deriving DecidableEq

/-- primitives/avn-common/src/eth/mod.rs:476-495 `concat_lower_data`: spans (lines 22-28) token 0..20, zero padding 20..36,
amount (u128 big endian) 36..52, recipient 52..72, lower id (u32 BE) 72..76, T2 sender 76..108, timestamp (u64 BE) 108..116. -/
def concatLowerData (d : LowerData) : List UInt8 :=
  d.token.toList ++ (List.replicate 16 0 ++ (beBytes 16 d.amount ++ (d.recipient.toList ++
    (beBytes 4 d.lowerId ++ (d.t2Sender.toList ++ beBytes 8 d.t2Timestamp)))))

/-- A span `lo..lo+len` of a byte array. -/
def span (l : List UInt8) (lo len : Nat) : List UInt8 := (l.drop lo).take len

/-- `H160::from_slice` and friends on a slice of the right length (`none` stands for the panic on a wrong length). -/
def toBytes? (n : Nat) (l : List UInt8) : Option (Bytes n) :=
  if h : l.length = n then some ⟨l.toArray, by simpa using h⟩ else none

/-- primitives/avn-common/src/eth/mod.rs:204-230 `LowerData::try_from(LowerParams)`: the decoder used when the lower is
confirmed by the validators. -/
def decodeLowerData (l : List UInt8) : Option LowerData := do
  if l.length ≠ 116 then none
  let token ← toBytes? 20 (span l 0 20)
  let recipient ← toBytes? 20 (span l 52 20)
  let sender ← toBytes? 32 (span l 76 32)
  some { token := token, amount := beVal (span l 36 16), recipient := recipient,
         lowerId := beVal (span l 72 4), t2Sender := sender, t2Timestamp := beVal (span l 108 8) }

end Verif.Lower
