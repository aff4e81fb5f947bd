import Verif.Model.Encoding
import Mathlib.Tactic.Ring
import Mathlib.Tactic.SplitIfs

namespace Verif

@[simp] theorem leBytes_length (k n : Nat) : (leBytes k n).length = k := by
  induction k generalizing n with
  | zero => rfl
  | succ k ih => simp [leBytes, ih]

@[simp] theorem beBytes_length (k n : Nat) : (beBytes k n).length = k := by simp [beBytes]

theorem leVal_leBytes (k n : Nat) (h : n < 256 ^ k) : leVal (leBytes k n) = n := by
  induction k generalizing n with
  | zero => simp at h; simp [leBytes, leVal, h]
  | succ k ih =>
    have h2 : n / 256 < 256 ^ k := by
      apply Nat.div_lt_of_lt_mul
      rw [Nat.pow_succ] at h; omega
    simp only [leBytes, leVal, ih _ h2, UInt8.toNat_ofNat']
    omega

theorem beVal_beBytes (k n : Nat) (h : n < 256 ^ k) : beVal (beBytes k n) = n := by
  simp [beVal, beBytes, leVal_leBytes k n h]

theorem leBytes_inj {k a b : Nat} (ha : a < 256 ^ k) (hb : b < 256 ^ k) (h : leBytes k a = leBytes k b) : a = b := by
  rw [← leVal_leBytes k a ha, ← leVal_leBytes k b hb, h]

theorem beBytes_inj {k a b : Nat} (ha : a < 256 ^ k) (hb : b < 256 ^ k) (h : beBytes k a = beBytes k b) : a = b := by
  rw [← beVal_beBytes k a ha, ← beVal_beBytes k b hb, h]

theorem leVal_lt (bs : List UInt8) : leVal bs < 256 ^ bs.length := by
  induction bs with
  | nil => simp [leVal]
  | cons b bs ih =>
    have := b.toNat_lt
    simp only [leVal, List.length_cons, Nat.pow_succ]; omega

theorem leBytes_leVal (bs : List UInt8) : leBytes bs.length (leVal bs) = bs := by
  induction bs with
  | nil => rfl
  | cons b bs ih =>
    have hb := b.toNat_lt
    simp only [List.length_cons, leBytes, leVal]
    have h1 : (b.toNat + 256 * leVal bs) % 256 = b.toNat := by omega
    have h2 : (b.toNat + 256 * leVal bs) / 256 = leVal bs := by omega
    rw [h1, h2, ih]; simp

/-- If a prefix code `enc` has fixed length, a concatenation splits uniquely. -/
theorem append_split {α : Type _} {a b c d : List α} (hl : a.length = c.length) (h : a ++ b = c ++ d) : a = c ∧ b = d :=
  List.append_inj h hl

theorem vec_split {n : Nat} {a c : Bytes n} {b d : List UInt8} (h : a.toList ++ b = c.toList ++ d) : a = c ∧ b = d := by
  obtain ⟨h1, h2⟩ := List.append_inj h (by simp)
  exact ⟨Vector.toList_inj.mp h1, h2⟩

theorem le_split {k a c : Nat} {b d : List UInt8} (ha : a < 256 ^ k) (hc : c < 256 ^ k)
    (h : leBytes k a ++ b = leBytes k c ++ d) : a = c ∧ b = d := by
  obtain ⟨h1, h2⟩ := List.append_inj h (by simp)
  exact ⟨leBytes_inj ha hc h1, h2⟩

theorem be_split {k a c : Nat} {b d : List UInt8} (ha : a < 256 ^ k) (hc : c < 256 ^ k)
    (h : beBytes k a ++ b = beBytes k c ++ d) : a = c ∧ b = d := by
  obtain ⟨h1, h2⟩ := List.append_inj h (by simp)
  exact ⟨beBytes_inj ha hc h1, h2⟩

theorem compact_ne_nil (n : Nat) : compact n ≠ [] := by
  unfold compact; split; · simp
  split; · simp [leBytes]
  split <;> simp [leBytes]

/-- The compact length prefix is a prefix code below `2^32`. -/
theorem compact_split {a c : Nat} {b d : List UInt8} (ha : a < pow32) (hc : c < pow32)
    (h : compact a ++ b = compact c ++ d) : a = c ∧ b = d := by
  have key : ∀ n, (compact n).head? = some (UInt8.ofNat (if n < 64 then n * 4 else if n < 16384 then (n*4+1) % 256
      else if n < 1073741824 then (n*4+2) % 256 else 3)) := by
    intro n; unfold compact; split; · rfl
    split; · simp [leBytes]
    split
    · simp [leBytes]
    · rfl
  have hlen : ∀ n, (compact n).length = if n < 64 then 1 else if n < 16384 then 2
      else if n < 1073741824 then 4 else 5 := by
    intro n; unfold compact; split; · rfl
    split; · simp
    split
    · simp
    · simp
  have hh : (compact a).head? = (compact c).head? := by
    have h1 := congrArg List.head? h
    have ha' := compact_ne_nil a
    have hc' := compact_ne_nil c
    revert h1 ha' hc'
    cases compact a <;> cases compact c <;> simp
  rw [key, key, Option.some.injEq] at hh
  have hh2 := congrArg UInt8.toNat hh
  simp only [UInt8.toNat_ofNat'] at hh2
  have hll : (compact a).length = (compact c).length := by
    rw [hlen, hlen]
    split_ifs at hh2 ⊢ <;> omega
  obtain ⟨h1, h2⟩ := List.append_inj h hll
  refine ⟨?_, h2⟩
  rw [hlen, hlen] at hll
  unfold compact at h1
  by_cases a1 : a < 64
  · have c1 : c < 64 := by
      rw [if_pos a1] at hll; by_contra hn; rw [if_neg hn] at hll; split at hll <;> [omega; (split at hll <;> omega)]
    rw [if_pos a1, if_pos c1] at h1
    simp only [List.cons.injEq, and_true] at h1
    have := congrArg UInt8.toNat h1
    simp only [UInt8.toNat_ofNat'] at this; omega
  · have c1 : ¬ c < 64 := by
      intro hn; rw [if_neg a1, if_pos hn] at hll; split at hll <;> [omega; (split at hll <;> omega)]
    rw [if_neg a1, if_neg c1] at hll h1
    by_cases a2 : a < 16384
    · have c2 : c < 16384 := by
        rw [if_pos a2] at hll; by_contra hn; rw [if_neg hn] at hll; split at hll <;> omega
      rw [if_pos a2, if_pos c2] at h1
      have := leBytes_inj (by omega) (by omega) h1; omega
    · have c2 : ¬ c < 16384 := by
        intro hn; rw [if_neg a2, if_pos hn] at hll; split at hll <;> omega
      rw [if_neg a2, if_neg c2] at hll h1
      by_cases a3 : a < 1073741824
      · have c3 : c < 1073741824 := by
          rw [if_pos a3] at hll; by_contra hn; rw [if_neg hn] at hll; omega
        rw [if_pos a3, if_pos c3] at h1
        have := leBytes_inj (by omega) (by omega) h1; omega
      · have c3 : ¬ c < 1073741824 := by
          intro hn; rw [if_neg a3, if_pos hn] at hll; omega
        rw [if_neg a3, if_neg c3] at h1
        simp only [List.cons.injEq, true_and] at h1
        exact leBytes_inj (by unfold pow32 at ha; omega) (by unfold pow32 at hc; omega) h1

theorem scaleBytes_split {a c b d : List UInt8} (ha : a.length < pow32) (hc : c.length < pow32)
    (h : scaleBytes a ++ b = scaleBytes c ++ d) : a = c ∧ b = d := by
  unfold scaleBytes at h
  rw [List.append_assoc, List.append_assoc] at h
  obtain ⟨h1, h2⟩ := compact_split ha hc h
  exact List.append_inj h2 h1

/-- `scaleVec` of a prefix code is a prefix code. -/
theorem scaleVec_split {α : Type} {enc : α → List UInt8} {a c : List α} {b d : List UInt8}
    (henc : ∀ x ∈ a, ∀ y ∈ c, ∀ r t, enc x ++ r = enc y ++ t → x = y ∧ r = t)
    (ha : a.length < pow32) (hc : c.length < pow32)
    (h : scaleVec enc a ++ b = scaleVec enc c ++ d) : a = c ∧ b = d := by
  unfold scaleVec at h
  rw [List.append_assoc, List.append_assoc] at h
  obtain ⟨h1, h2⟩ := compact_split ha hc h
  clear h ha hc
  induction a generalizing c with
  | nil =>
    cases c with
    | nil => exact ⟨rfl, by simpa using h2⟩
    | cons _ _ => simp at h1
  | cons x xs ih =>
    cases c with
    | nil => simp at h1
    | cons y ys =>
      simp only [List.map_cons, List.flatten_cons, List.append_assoc] at h2
      obtain ⟨hx, h3⟩ := henc x (by simp) y (by simp) _ _ h2
      obtain ⟨hxs, hr⟩ := ih (fun u hu v hv => henc u (by simp [hu]) v (by simp [hv])) (by simpa using h1) h3
      exact ⟨by rw [hx, hxs], hr⟩

end Verif
