import Verif.Model.Fees

/-!
# What a transaction costs
`runtime/common/src/lib.rs` (`WeightToFee`, `TransactionByteFee`), wired in `runtime/avn/src/configs/mod.rs:69-97, 169-176`.

`pallet_transaction_payment` is a dependency; `feeRaw`, `predicted` and `corrected` follow its `compute_fee_raw`, `compute_fee` and
`compute_actual_fee`. The congestion multiplier (`FixedU128`, in units of `10^-18`) is arbitrary here: its updates
(`SlowAdjustingFeeUpdate`) are not modelled. Of weights only the computation time (`ref_time`) enters the fee.
-/

namespace Verif.Price

/-- `PICO_AVT`. Models `runtime/common/src/constants.rs:25`. -/
def picoAvt : Nat := 1000000
/-- `NANO_AVT`. Models `runtime/common/src/constants.rs:26`. -/
def nanoAvt : Nat := 1000 * picoAvt
/-- `MICRO_AVT`. Models `runtime/common/src/constants.rs:27`. -/
def microAvt : Nat := 1000 * nanoAvt
/-- `MILLI_AVT`. Models `runtime/common/src/constants.rs:28`. -/
def milliAvt : Nat := 1000 * microAvt

/-- `ExtrinsicBaseWeight`, its computation time: 125 000 ns of 1000 units each. Models
`runtime/common/src/weights/extrinsic_weights.rs:24-28`. -/
def extrinsicBase : Nat := 1000 * 125000

/-- The computation time of `MAXIMUM_BLOCK_WEIGHT`: half a second of `10^12` units. Models `runtime/avn/src/lib.rs:172-179`. -/
def maxBlock : Nat := 1000000000000 / 2

/-- `TransactionByteFee`. Models `runtime/common/src/lib.rs:76-83`. -/
def byteFee : Nat := 5 * microAvt

/-- `u128::saturating_mul`. -/
def satMul128 (a b : Nat) : Nat := if a * b < pow128 then a * b else pow128 - 1

/-- `WeightToFee::weight_to_fee`: one term of degree one, with an integer part and a fraction (`Perbill`). Models
`runtime/common/src/lib.rs:59-74`; the evaluation of the polynomial is that of `frame_support`. -/
def weightToFee (refTime : Nat) : Nat :=
  let p := 1 * milliAvt
  let q := extrinsicBase
  satAdd128 (perbillMul (perbillFromRational (p % q) q) refTime) (satMul128 (p / q) refTime)

/-- The congestion multiplier applied to an amount: `FixedU128::saturating_mul_int`, rounding down. -/
def congested (multiplier amount : Nat) : Nat :=
  if multiplier * amount / 1000000000000000000 < pow128 then multiplier * amount / 1000000000000000000 else pow128 - 1

/-- `compute_fee_raw`: the base fee, the length fee and the adjusted weight fee, and the tip; a call that does not pay costs its tip. The
computation time is capped at that of a block. Base extrinsic weight: `runtime/avn/src/configs/mod.rs:80-82`; byte fee and weight
fee: `runtime/avn/src/configs/mod.rs:169-176`. -/
def feeRaw (multiplier len refTime tip : Nat) (pays : Bool) : Nat :=
  if pays then
    let base := weightToFee (min extrinsicBase maxBlock)
    let lenFee := satMul128 byteFee len
    let weightFee := congested multiplier (weightToFee (min refTime maxBlock))
    satAdd128 (satAdd128 (satAdd128 base lenFee) weightFee) tip
  else tip

/-- A signed transaction as the fee computation sees it: its length in bytes, the computation time announced for its call and whether
the call pays; what the dispatch reported back (a computation time, and whether to pay after all); and the tip. -/
structure Tx where
  len : Nat
  refTime : Nat
  pays : Bool
  actual : Option Nat
  paysAfter : Bool
  tip : Nat

/-- `compute_fee`: what is withdrawn before the dispatch. -/
def predicted (multiplier : Nat) (t : Tx) : Nat := feeRaw multiplier t.len t.refTime t.tip t.pays

/-- `calc_actual_weight`: the reported computation time, never more than the announced one. -/
def actualTime (t : Tx) : Nat := min (t.actual.getD t.refTime) t.refTime

/-- `compute_actual_fee`: what is due after the dispatch. -/
def corrected (multiplier : Nat) (t : Tx) : Nat := feeRaw multiplier t.len (actualTime t) t.tip (t.pays && t.paysAfter)

/-- A signed transaction with these fees, in the model of the fee pallet. Models `runtime/avn/src/configs/mod.rs:169-176` (the adapter) and
`runtime/avn/src/lib.rs:91-103` (the extension that charges). -/
def charge (multiplier : Nat) (t : Tx) (who : Acct) (lockedOk : Bool) (dispatch : Fees.Balances → Fees.Balances)
    (inner : Option Fees.Admin) : Fees.Step :=
  .tx who lockedOk (predicted multiplier t) (corrected multiplier t) t.tip dispatch inner

end Verif.Price
