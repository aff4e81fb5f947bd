import Verif.Model.Price
import Verif.Props.Fees

/-!
# C124: the price of a transaction
-/

namespace Verif.Price

open Fees

/-! ## Specification (amounts in units of `10^-18` AVT, computation time in picoseconds, the multiplier in units of `10^-18`) -/

/-- The list price without tip: 1 mAVT, 5 µAVT for every byte, and 8 pico-AVT (`8·10^6` units) for every picosecond of computation, up to the
half second a block has, times the congestion multiplier. -/
def listPrice (multiplier len time : Nat) : Nat :=
  10 ^ 15 + 5 * 10 ^ 12 * len + multiplier * (8000000 * min time 500000000000) / 10 ^ 18

/-- Transactions as they occur: at most 5 MiB, tips below `2^127`; and a multiplier below `10^36` (it would be a billion billion). -/
def Realistic (multiplier : Nat) (t : Tx) : Prop := multiplier ≤ 10 ^ 36 ∧ t.len ≤ 5 * 1024 * 1024 ∧ t.tip < 2 ^ 127

/-! ## Proofs -/

theorem satAdd_eq {a b : Nat} (h : a + b < 2 ^ 128) : satAdd128 a b = a + b := by
  unfold satAdd128 pow128; rw [if_pos h]

theorem satMul_eq {a b : Nat} (h : a * b < 2 ^ 128) : satMul128 a b = a * b := by
  unfold satMul128 pow128; rw [if_pos h]

theorem weightToFee_eq (w : Nat) (h : w ≤ maxBlock) : weightToFee w = 8000000 * w := by
  unfold maxBlock at h
  have e1 : perbillFromRational (1 * milliAvt % extrinsicBase) extrinsicBase = 0 := by decide
  have e2 : (1 * milliAvt / extrinsicBase) = 8000000 := by decide
  unfold weightToFee
  simp only [e1, e2]
  have e3 : perbillMul 0 w = 0 := by simp [perbillMul, divNearestDown]
  rw [e3]
  rw [satMul_eq (by omega), satAdd_eq (by omega)]
  omega

theorem feeRaw_eq (m len w tip : Nat) (h1 : m ≤ 10 ^ 36) (h2 : len ≤ 5 * 1024 * 1024) (h3 : tip < 2 ^ 127) :
    feeRaw m len w tip true = listPrice m len w + tip := by
  have hb : weightToFee (min extrinsicBase maxBlock) = 10 ^ 15 := by
    rw [weightToFee_eq _ (Nat.min_le_right _ _)]; decide
  have hl : satMul128 byteFee len = 5 * 10 ^ 12 * len := by
    have : byteFee = 5 * 10 ^ 12 := by decide
    rw [this]; unfold satMul128 pow128; rw [if_pos (by omega)]
  have hm : maxBlock = 500000000000 := by decide
  have hw := weightToFee_eq _ (Nat.min_le_right w maxBlock)
  rw [hm] at hw
  have hle : m * (8000000 * min w 500000000000) ≤ 10 ^ 36 * (8000000 * 500000000000) :=
    Nat.mul_le_mul h1 (Nat.mul_le_mul_left _ (Nat.min_le_right _ _))
  have hd : m * (8000000 * min w 500000000000) / 10 ^ 18 ≤ 10 ^ 36 * (8000000 * 500000000000) / 10 ^ 18 := Nat.div_le_div_right hle
  have hd' : (10 : Nat) ^ 36 * (8000000 * 500000000000) / 10 ^ 18 = 4 * 10 ^ 36 := by decide
  rw [hd'] at hd
  have hc : congested m (8000000 * min w 500000000000) = m * (8000000 * min w 500000000000) / 10 ^ 18 := by
    unfold congested pow128
    rw [show (1000000000000000000 : Nat) = 10 ^ 18 by decide]
    rw [if_pos (by omega)]
  unfold feeRaw listPrice
  rw [if_pos rfl]
  dsimp only
  rw [hb, hl, hm, hw, hc]
  generalize m * (8000000 * min w 500000000000) / 10 ^ 18 = x at *
  rw [satAdd_eq (a := 10 ^ 15) (by omega), satAdd_eq (b := x) (by omega), satAdd_eq (by omega)]

/-- C124: what is withdrawn before a paying call is its list price for the announced computation time, plus the tip; what is due afterwards is the
list price for the time it reported (or was announced, if it reported none or more), plus the tip, or just the tip if the dispatch
waived the fee. A call that does not pay costs its tip. -/
theorem C124_price_exact (m : Nat) (t : Tx) (h : Realistic m t) :
    predicted m t = (if t.pays then listPrice m t.len t.refTime else 0) + t.tip ∧
    corrected m t = (if t.pays ∧ t.paysAfter then listPrice m t.len (match t.actual with
      | some a => min a t.refTime
      | none => t.refTime) else 0) + t.tip := by
  obtain ⟨h1, h2, h3⟩ := h
  constructor
  · unfold predicted
    cases hp : t.pays with
    | true => rw [feeRaw_eq m _ _ _ h1 h2 h3]; simp
    | false => simp [feeRaw]
  · unfold corrected
    cases hp : t.pays with
    | true =>
      cases hq : t.paysAfter with
      | true =>
        rw [Bool.and_self, feeRaw_eq m _ _ _ h1 h2 h3]
        unfold actualTime
        cases t.actual with
        | none => simp
        | some a => simp
      | false => simp [feeRaw]
    | false => simp [feeRaw]

theorem satAdd_mono {a a' b b' : Nat} (h : a ≤ a') (h' : b ≤ b') : satAdd128 a b ≤ satAdd128 a' b' := by
  unfold satAdd128 pow128
  split <;> split <;> omega

theorem satMul_mono {a b b' : Nat} (h : b ≤ b') : satMul128 a b ≤ satMul128 a b' := by
  have := Nat.mul_le_mul_left a h
  unfold satMul128 pow128
  split <;> split <;> omega

theorem congested_mono {m m' a a' : Nat} (hm : m ≤ m') (h : a ≤ a') : congested m a ≤ congested m' a' := by
  have := Nat.div_le_div_right (c := 1000000000000000000) (Nat.mul_le_mul hm h)
  unfold congested pow128
  split <;> split <;> omega

theorem le_satAdd (a b : Nat) (ha : a < 2 ^ 128) : a ≤ satAdd128 a b := by
  unfold satAdd128 pow128; split <;> omega

theorem satAdd_lt (a b : Nat) : satAdd128 a b < 2 ^ 128 := by
  unfold satAdd128 pow128; split <;> omega

theorem satMul_lt (a b : Nat) : satMul128 a b < 2 ^ 128 := by
  unfold satMul128 pow128; split <;> omega

/-- C124: a transaction never becomes cheaper by being longer, by announcing more computation, by congestion or by a larger tip; for all
values, however large. -/
theorem C124_monotone (m m' : Nat) (t t' : Tx) (hm : m ≤ m') (hl : t.len ≤ t'.len) (hw : t.refTime ≤ t'.refTime)
    (ht : t.tip ≤ t'.tip) (hp : t.pays = t'.pays) : predicted m t ≤ predicted m' t' := by
  unfold predicted feeRaw
  rw [← hp]
  by_cases h : t.pays = true
  · rw [if_pos h, if_pos h]
    dsimp only
    refine satAdd_mono (satAdd_mono (satAdd_mono (Nat.le_refl _) (satMul_mono hl)) (congested_mono hm ?_)) ht
    rw [weightToFee_eq _ (Nat.min_le_right _ _), weightToFee_eq _ (Nat.min_le_right _ _)]
    exact Nat.mul_le_mul_left _ (by omega)
  · rw [if_neg h, if_neg h]; exact ht

/-- C124: no more is due after the dispatch than was withdrawn before it, so the correction can only be a refund; for all values with a
`u128` tip. -/
theorem C124_correction_is_a_refund (m : Nat) (t : Tx) (ht : t.tip < 2 ^ 128) : corrected m t ≤ predicted m t := by
  unfold corrected predicted
  cases hp : t.pays with
  | false => simp [feeRaw]
  | true =>
    cases hq : t.paysAfter with
    | false =>
      simp only [Bool.and_false, feeRaw, if_pos, if_neg Bool.false_ne_true]
      generalize satAdd128 (satAdd128 (weightToFee _) _) _ = y
      unfold satAdd128 pow128
      split <;> omega
    | true =>
      simp only [Bool.and_true]
      unfold feeRaw
      rw [if_pos rfl, if_pos rfl]
      dsimp only
      refine satAdd_mono (satAdd_mono (Nat.le_refl _) (congested_mono (Nat.le_refl _) ?_)) (Nat.le_refl _)
      rw [weightToFee_eq _ (Nat.min_le_right _ _), weightToFee_eq _ (Nat.min_le_right _ _)]
      have : actualTime t ≤ t.refTime := Nat.min_le_right _ _
      exact Nat.mul_le_mul_left _ (by omega)

/-- C124: no paying transaction is ever free: 1 mAVT and 5 µAVT for each byte are due whatever the congestion and the computation; and without
congestion (multiplier at most one) it never costs more than that and 4 AVT and the tip. -/
theorem C124_bounds (m : Nat) (t : Tx) (h : Realistic m t) (hp : t.pays = true) :
    10 ^ 15 + 5 * 10 ^ 12 * t.len + t.tip ≤ predicted m t ∧
    (t.paysAfter = true → 10 ^ 15 + 5 * 10 ^ 12 * t.len + t.tip ≤ corrected m t) ∧
    (m ≤ 10 ^ 18 → predicted m t ≤ 10 ^ 15 + 5 * 10 ^ 12 * t.len + 4 * 10 ^ 18 + t.tip) := by
  obtain ⟨e1, e2⟩ := C124_price_exact m t h
  rw [e1, e2]
  simp only [hp, if_pos, true_and]
  refine ⟨by unfold listPrice; omega, fun hq => by rw [if_pos hq]; unfold listPrice; omega, fun hm => ?_⟩
  have hle : m * (8000000 * min t.refTime 500000000000) ≤ 10 ^ 18 * (8000000 * 500000000000) :=
    Nat.mul_le_mul hm (Nat.mul_le_mul_left _ (Nat.min_le_right _ _))
  have hd := Nat.div_le_div_right (c := 10 ^ 18) hle
  have hd' : (10 : Nat) ^ 18 * (8000000 * 500000000000) / 10 ^ 18 = 4 * 10 ^ 18 := by decide
  rw [hd'] at hd
  unfold listPrice
  omega

/-- C124: what a sender without a fee adjustment is charged. If it can pay the price predicted, the price is withdrawn, the call
dispatched, and in the end exactly the corrected price has moved from the sender to the staking pot — unless the call left the sender without
any balance, in which case nothing is returned. If it cannot, nothing happens at all. -/
theorem C124_sender_pays (pot who : Acct) (s : State) (m : Nat) (t : Tx) (h : Realistic m t) (hp : t.pays = true)
    (dispatch : Balances → Balances) (hk : s.known who = none) (hne : who ≠ pot) :
    let after := dispatch { s.bal with free := fun a => if a = who then s.bal.free who - predicted m t else s.bal.free a }
    let s' := step pot s (charge m t who true dispatch none)
    (s.bal.free who < predicted m t → s' = s) ∧
    (predicted m t ≤ s.bal.free who → 0 < after.free who + after.reserved who →
      s'.bal.free who = after.free who + (predicted m t - corrected m t) ∧
      s'.bal.free pot = after.free pot + corrected m t ∧
      ∀ a, a ≠ who → a ≠ pot → s'.bal.free a = after.free a) ∧
    (predicted m t ≤ s.bal.free who → after.free who + after.reserved who = 0 →
      s'.bal.free who = 0 ∧ s'.bal.free pot = after.free pot + predicted m t) := by
  intro after s'
  have hb := (C124_bounds m t h hp).1
  have h0 : predicted m t ≠ 0 := by omega
  have hlt : predicted m t < 2 ^ 128 := by
    unfold predicted feeRaw
    rw [hp, if_pos rfl]
    exact satAdd_lt _ _
  have hc : corrected m t ≤ predicted m t := C124_correction_is_a_refund m t (by have := h.2.2; omega)
  obtain ⟨f1, f2⟩ := C65_fee_needs_funds pot s who true (predicted m t) (corrected m t) t.tip dispatch none h0
  refine ⟨fun hf => f1 (Or.inl hf), ?_⟩
  have main : predicted m t ≤ s.bal.free who → ∃ refund kept, refund + kept = predicted m t ∧
      kept = (if after.free who + after.reserved who = 0 then predicted m t else min (predicted m t) (corrected m t)) ∧
      ∀ a, s'.bal.free a = after.free a + (if a = who then refund else 0) + (if a = pot then kept else 0) := by
    intro hf
    obtain ⟨_, hw⟩ := f2 hf rfl
    obtain ⟨refund, kept, c1, c2, _, c4⟩ := C65_charge_exact pot s who true (predicted m t) (corrected m t) t.tip dispatch none h0 hlt _ hw
    have ha : applies (afterDispatch s who { s.bal with free := fun a => if a = who then s.bal.free who - predicted m t else s.bal.free a }
        dispatch none) who = none := by
      unfold applies
      simp only [afterDispatch, Option.map_none, Option.getD_none, hk]
    rw [ha] at c2
    exact ⟨refund, kept, c1, c2, c4⟩
  constructor
  · intro hf hpos
    obtain ⟨refund, kept, c1, c2, c4⟩ := main hf
    rw [if_neg (by omega), Nat.min_eq_right hc] at c2
    refine ⟨?_, ?_, ?_⟩
    · rw [c4, if_pos rfl, if_neg hne]; omega
    · rw [c4, if_neg (Ne.symm hne), if_pos rfl]; omega
    · intro a h1 h2
      rw [c4, if_neg h1, if_neg h2]; rfl
  · intro hf hz
    obtain ⟨refund, kept, c1, c2, c4⟩ := main hf
    rw [if_pos hz] at c2
    constructor
    · rw [c4, if_pos rfl, if_neg hne]; omega
    · rw [c4, if_neg (Ne.symm hne), if_pos rfl]; omega

/-! ### The hypotheses can be met -/

/-- A transfer of 150 bytes announcing 200 µs of computation and taking 100 µs, tip 7, at multiplier one. -/
def sample : Tx := { len := 150, refTime := 200000000, pays := true, actual := some 100000000, paysAfter := true, tip := 7 }

example : Realistic (10 ^ 18) sample := by unfold Realistic sample; decide

/-- It costs 1 mAVT, 0.75 mAVT for its length, and 1.6 mAVT predicted, 0.8 mAVT actual computation, and the tip. -/
example : predicted (10 ^ 18) sample = 3350000000000007 ∧ corrected (10 ^ 18) sample = 2550000000000007 := by decide

/-- A sender with 1 AVT. -/
example (a : Acct) : ∃ (s : State), s.known a = none ∧ predicted (10 ^ 18) sample ≤ s.bal.free a ∧
    0 < (s.bal.free a - predicted (10 ^ 18) sample) + s.bal.reserved a :=
  ⟨init (fun _ => 0) 0 { free := fun _ => 10 ^ 18, reserved := fun _ => 0 }, rfl, (by decide : predicted (10 ^ 18) sample ≤ 10 ^ 18), (by decide : 0 < (10 ^ 18 - predicted (10 ^ 18) sample) + 0)⟩

end Verif.Price
