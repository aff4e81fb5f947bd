import Verif.Model.EventParsing
import Verif.Lemmas.Encoding
import Mathlib.Tactic.Ring
import Mathlib.Tactic.Positivity
import Mathlib.Tactic.NormNum

namespace Verif.Parsing

open Verif (Bytes Addr Hash)

theorem leBytes_add (a b n : Nat) : leBytes (a + b) n = leBytes a n ++ leBytes b (n / 256 ^ a) := by
  induction a generalizing n with
  | zero => simp [leBytes]
  | succ a ih =>
    rw [Nat.add_right_comm, leBytes, leBytes, ih, Nat.div_div_eq_div_mul, Nat.pow_succ, Nat.mul_comm 256]; rfl

theorem beBytes_add (a b n : Nat) : beBytes (a + b) n = beBytes a (n / 256 ^ b) ++ beBytes b n := by
  unfold beBytes; rw [Nat.add_comm, leBytes_add, List.reverse_append]

theorem leBytes_mod (k n : Nat) : leBytes k (n % 256 ^ k) = leBytes k n := by
  induction k generalizing n with
  | zero => rfl
  | succ k ih =>
    rw [leBytes, leBytes]
    have h1 : n % 256 ^ (k + 1) % 256 = n % 256 := Nat.mod_mod_of_dvd _ (Dvd.intro_left (256 ^ k) rfl)
    have h2 : n % 256 ^ (k + 1) / 256 = n / 256 % 256 ^ k := by
      rw [Nat.pow_succ, Nat.mul_comm]; exact Nat.mod_mul_right_div_self n 256 (256 ^ k)
    rw [h1, h2, ih]

theorem leVal_leBytes_mod (k n : Nat) : leVal (leBytes k n) = n % 256 ^ k := by
  rw [← leBytes_mod, leVal_leBytes _ _ (Nat.mod_lt _ (by positivity))]

theorem beVal_beBytes_mod (k n : Nat) : beVal (beBytes k n) = n % 256 ^ k := by
  simp [beVal, beBytes, leVal_leBytes_mod]

theorem leVal_zero_iff (l : List UInt8) : leVal l = 0 ↔ ∀ b ∈ l, b = 0 := by
  induction l with
  | nil => simp [leVal]
  | cons b l ih =>
    have hb : b = 0 ↔ b.toNat = 0 := by rw [← UInt8.toNat_inj]; rfl
    rw [leVal, List.forall_mem_cons, ← ih, hb]
    omega

theorem anyNonZero_iff (l : List UInt8) : anyNonZero l = true ↔ beVal l ≠ 0 := by
  unfold anyNonZero beVal
  rw [Ne, leVal_zero_iff]
  simp [List.any_eq_true]

theorem leVal_append (a b : List UInt8) : leVal (a ++ b) = leVal a + 256 ^ a.length * leVal b := by
  induction a with
  | nil => simp [leVal]
  | cons x a ih => simp only [List.cons_append, leVal, ih, List.length_cons]; ring

theorem beVal_append (a b : List UInt8) : beVal (a ++ b) = beVal a * 256 ^ b.length + beVal b := by
  unfold beVal; rw [List.reverse_append, leVal_append]; simp; ring

theorem beVal_lt (l : List UInt8) : beVal l < 256 ^ l.length := by
  have := leVal_lt l.reverse; simpa [beVal] using this

/-- A 32 byte word splits into its first `a` and its remaining bytes. -/
theorem word_split (w : List UInt8) (a : Nat) : beVal w = beVal (w.take a) * 256 ^ (w.length - a) + beVal (w.drop a) := by
  conv_lhs => rw [← List.take_append_drop a w]
  rw [beVal_append, List.length_drop]

theorem slice_full (l : List UInt8) (a : Nat) : slice l a l.length = l.drop a := by
  unfold slice; rw [List.take_of_length_le]; simp

theorem slice_zero (l : List UInt8) (b : Nat) : slice l 0 b = l.take b := by simp [slice]

theorem slice_eq_drop {l : List UInt8} {a n : Nat} (h : l.length = n) : slice l a n = l.drop a := by
  subst h; exact slice_full l a

theorem slice_beBytes (a b n : Nat) : slice (beBytes (a + b) n) a (a + b) = beBytes b n := by
  rw [slice_eq_drop (beBytes_length _ _), beBytes_add, List.drop_left' (beBytes_length _ _)]

theorem take_beBytes (a b n : Nat) : (beBytes (a + b) n).take a = beBytes a (n / 256 ^ b) := by
  rw [beBytes_add, List.take_left' (beBytes_length _ _)]

theorem anyNonZero_high (n : Nat) (h : n < 2 ^ 256) : anyNonZero (slice (beBytes 32 n) 0 16) = decide (2 ^ 128 ≤ n) := by
  rw [slice_zero, show (32 : Nat) = 16 + 16 from rfl, take_beBytes]
  rw [Bool.eq_iff_iff, anyNonZero_iff, beVal_beBytes_mod, decide_eq_true_iff]
  have : n / 256 ^ 16 < 256 ^ 16 := by
    rw [Nat.div_lt_iff_lt_mul (by positivity)]; exact lt_of_lt_of_eq h (by norm_num)
  rw [Nat.mod_eq_of_lt this]
  have e : (2 : Nat) ^ 128 = 256 ^ 16 := by norm_num
  rw [e, Ne, Nat.div_eq_zero_iff]
  simp

theorem anyNonZero_high24 (n : Nat) (h : n < 2 ^ 64) : anyNonZero (slice (beBytes 32 n) 0 24) = false := by
  rw [slice_zero, show (32 : Nat) = 24 + 8 from rfl, take_beBytes, Bool.eq_false_iff, Ne, anyNonZero_iff, beVal_beBytes_mod]
  have : n / 256 ^ 8 = 0 := Nat.div_eq_of_lt (lt_of_lt_of_eq h (by norm_num))
  rw [this, Nat.zero_mod]; simp

theorem fromSlice_toList {n : Nat} (v : Bytes n) : fromSlice n v.toList = v := by
  ext i hi
  simp [fromSlice, hi]

theorem toList_fromSlice {n : Nat} {l : List UInt8} (h : l.length = n) : (fromSlice n l).toList = l := by
  apply List.ext_getElem
  · simp [fromSlice, h]
  · intro i h1 h2; simp [fromSlice, h2]

theorem beNat_val {n : Nat} [NeZero n] {l : List UInt8} (h : beVal l < n) : (beNat n l).val = beVal l := by
  unfold beNat; simp [Fin.ofNat, Nat.mod_eq_of_lt h]

theorem beNat_beBytes (k n m : Nat) [NeZero m] (x : Fin m) (hm : m = 256 ^ k) (hx : n = x.val) : beNat m (beBytes k n) = x := by
  apply Fin.ext
  have hlt : n < 256 ^ k := by rw [hx, ← hm]; exact x.isLt
  rw [beNat_val (by rw [beVal_beBytes _ _ hlt, hx]; exact x.isLt), beVal_beBytes _ _ hlt, hx]

end Verif.Parsing
