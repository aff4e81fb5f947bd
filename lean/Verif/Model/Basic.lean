/-!
# Shared modelling vocabulary

Storage maps, fixed width arithmetic and `Perbill`, used by every pallet model.
Nothing here models a project file; it models the FRAME / `sp_arithmetic` primitives the project calls.
-/

namespace Verif

/-- A `StorageMap` write: the map `f` with the value at key `a` replaced by `b`
(FRAME `StorageMap::insert`, and `remove` when `b` is the map's default). -/
def upd {α β : Type _} [DecidableEq α] (f : α → β) (a : α) (b : β) : α → β :=
  fun x => if x = a then b else f x

@[simp] theorem upd_same {α β : Type _} [DecidableEq α] (f : α → β) (a : α) (b : β) :
    upd f a b a = b := by simp [upd]

theorem upd_ne {α β : Type _} [DecidableEq α] (f : α → β) {a x : α} (b : β) (h : x ≠ a) :
    upd f a b x = f x := by simp [upd, h]

theorem upd_apply {α β : Type _} [DecidableEq α] (f : α → β) (a x : α) (b : β) :
    upd f a b x = if x = a then b else f x := rfl

/-- `u32::MAX + 1`. -/
def pow32 : Nat := 2 ^ 32
/-- `u64::MAX + 1`. -/
def pow64 : Nat := 2 ^ 64
/-- `u128::MAX + 1`. -/
def pow128 : Nat := 2 ^ 128

/-- `u128::checked_add` (balances are `u128`). -/
def checkedAdd128 (a b : Nat) : Option Nat := if a + b < pow128 then some (a + b) else none

/-- `checked_sub` on any unsigned type. -/
def checkedSub (a b : Nat) : Option Nat := if b ≤ a then some (a - b) else none

/-- Wrapping `+ 1` on `u32` (release builds: `Cargo.toml` sets no `overflow-checks`). -/
def wrapInc32 (a : Nat) : Nat := (a + 1) % pow32
/-- Wrapping `+ 1` on `u64`. -/
def wrapInc64 (a : Nat) : Nat := (a + 1) % pow64
/-- `u128::saturating_add`. -/
def satAdd128 (a b : Nat) : Nat := if a + b < pow128 then a + b else pow128 - 1

/-- `Perbill` accuracy (`sp_arithmetic`, `Perbill::ACCURACY`). -/
def billion : Nat := 1000000000

/-- Integer division rounding to the nearest integer, ties towards zero
(`sp_arithmetic::Rounding::NearestPrefDown`, the mode of `Perbill * N`). -/
def divNearestDown (a m : Nat) : Nat := a / m + if m / 2 < a % m then 1 else 0

/-- `Perbill(parts) * x` (`sp_arithmetic::per_things`, `overflow_prune_mul` with `NearestPrefDown`). -/
def perbillMul (parts x : Nat) : Nat := divNearestDown (parts * x) billion

/-- `Perbill::from_rational(p, q)`: rounds down, clamped to one, `q = 0` read as `1`. -/
def perbillFromRational (p q : Nat) : Nat :=
  let q' := max q 1
  let p' := min p q'
  p' * billion / q'

/-- `Perbill::from_percent(x)`, clamped at one hundred percent. -/
def perbillFromPercent (x : Nat) : Nat := min x 100 * 10000000

end Verif
