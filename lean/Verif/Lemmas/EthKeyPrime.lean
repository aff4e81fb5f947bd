import Mathlib.NumberTheory.LucasPrimality
import Mathlib.Tactic.NormNum.Prime
import Verif.Model.EthKey

/-!
# The secp256k1 field prime is prime

Used by the theorems about Ethereum public keys (C147). The certificate is checked by the kernel.
-/

namespace Verif.EthKey

theorem powMod_eq (m : Nat) : ∀ f a e acc, e < 2 ^ f → powMod m f a e acc = acc * a ^ e % m := by
  intro f
  induction f with
  | zero => intro a e acc h; have : e = 0 := by omega
            subst this; simp [powMod]
  | succ f ih =>
    intro a e acc h
    rw [powMod, ih _ _ _ (by omega)]
    have hsq : (a * a % m) ^ (e / 2) % m = a ^ (2 * (e / 2)) % m := by
      rw [← Nat.pow_mod, Nat.pow_mul, Nat.pow_two]
    have key : ∀ x, x * (a * a % m) ^ (e / 2) % m = x * a ^ (2 * (e / 2)) % m := by
      intro x; rw [Nat.mul_mod, hsq, ← Nat.mul_mod]
    rw [key]
    by_cases h2 : e % 2 = 1
    · rw [if_pos h2, Nat.mul_mod, Nat.mod_mod, ← Nat.mul_mod, Nat.mul_assoc, ← Nat.pow_succ']
      congr 3; omega
    · rw [if_neg h2]; congr 3; omega

/-- A Pratt certificate. -/
theorem pratt (p a : Nat) (fs : List Nat) (hp : 1 < p) (hb : p < 2 ^ 256)
    (h1 : powMod p 256 a (p - 1) 1 = 1) (hfs : ∀ q, q.Prime → q ∣ p - 1 → q ∈ fs)
    (h2 : ∀ q ∈ fs, powMod p 256 a ((p - 1) / q) 1 ≠ 1) : p.Prime := by
  have : Fact (1 < p) := ⟨hp⟩
  have hone : ((1 : Nat) : ZMod p) = 1 := by simp
  have conv : ∀ e, e < 2 ^ 256 → (((a : ZMod p) ^ e = 1) ↔ powMod p 256 a e 1 = 1) := by
    intro e he
    rw [powMod_eq p 256 a e 1 he, Nat.one_mul, ← Nat.cast_pow, ← hone, ZMod.natCast_eq_natCast_iff', Nat.mod_eq_of_lt hp]
  refine lucas_primality p (a : ZMod p) ((conv _ (by omega)).2 h1) ?_
  intro q hq hd he
  have : (p - 1) / q ≤ p - 1 := Nat.div_le_self _ _
  exact h2 q (hfs q hq hd) ((conv _ (by omega)).1 he)

/-- The prime divisors of a product of primes. -/
theorem mem_of_prod (l : List Nat) (h : ∀ x ∈ l, x.Prime) (n : Nat) (hn : n = l.prod) (q : Nat) (hq : q.Prime) (hd : q ∣ n) : q ∈ l := by
  subst hn
  obtain ⟨x, hx, hqx⟩ := (Nat.Prime.prime hq).dvd_prod_iff.1 hd
  rcases (h x hx).eq_one_or_self_of_dvd q hqx with e | e
  · exact absurd e hq.one_lt.ne'
  · exact e ▸ hx


/-! The certificate, from below. -/

private theorem prime1 : Nat.Prime 1206781 := by
  refine pratt _ 10 [2, 2, 3, 5, 20113] (by decide +kernel) (by decide +kernel) (by decide +kernel) ?_ (by decide +kernel)
  refine fun q hq hd => mem_of_prod _ ?_ _ (by decide +kernel) q hq hd
  simp only [List.forall_mem_cons]
  refine ⟨?_, ?_, ?_, ?_, ?_, by simp⟩
  · norm_num
  · norm_num
  · norm_num
  · norm_num
  · norm_num

private theorem prime2 : Nat.Prime 7240687 := by
  refine pratt _ 3 [2, 3, 1206781] (by decide +kernel) (by decide +kernel) (by decide +kernel) ?_ (by decide +kernel)
  refine fun q hq hd => mem_of_prod _ ?_ _ (by decide +kernel) q hq hd
  simp only [List.forall_mem_cons]
  refine ⟨?_, ?_, ?_, by simp⟩
  · norm_num
  · norm_num
  · exact prime1

private theorem prime3 : Nat.Prime 13331831 := by
  refine pratt _ 13 [2, 5, 971, 1373] (by decide +kernel) (by decide +kernel) (by decide +kernel) ?_ (by decide +kernel)
  refine fun q hq hd => mem_of_prod _ ?_ _ (by decide +kernel) q hq hd
  simp only [List.forall_mem_cons]
  refine ⟨?_, ?_, ?_, ?_, by simp⟩
  · norm_num
  · norm_num
  · norm_num
  · norm_num

private theorem prime4 : Nat.Prime 107590001 := by
  refine pratt _ 3 [2, 2, 2, 2, 5, 5, 5, 5, 7, 29, 53] (by decide +kernel) (by decide +kernel) (by decide +kernel) ?_ (by decide +kernel)
  refine fun q hq hd => mem_of_prod _ ?_ _ (by decide +kernel) q hq hd
  simp only [List.forall_mem_cons]
  refine ⟨?_, ?_, ?_, ?_, ?_, ?_, ?_, ?_, ?_, ?_, ?_, by simp⟩
  · norm_num
  · norm_num
  · norm_num
  · norm_num
  · norm_num
  · norm_num
  · norm_num
  · norm_num
  · norm_num
  · norm_num
  · norm_num

private theorem prime5 : Nat.Prime 173378833005251801 := by
  refine pratt _ 6 [2, 2, 2, 5, 5, 2621, 13331831, 24809] (by decide +kernel) (by decide +kernel) (by decide +kernel) ?_ (by decide +kernel)
  refine fun q hq hd => mem_of_prod _ ?_ _ (by decide +kernel) q hq hd
  simp only [List.forall_mem_cons]
  refine ⟨?_, ?_, ?_, ?_, ?_, ?_, ?_, ?_, by simp⟩
  · norm_num
  · norm_num
  · norm_num
  · norm_num
  · norm_num
  · norm_num
  · exact prime3
  · norm_num

private theorem prime6 : Nat.Prime 22149492674086928081353 := by
  refine pratt _ 5 [2, 2, 2, 3, 5323, 173378833005251801] (by decide +kernel) (by decide +kernel) (by decide +kernel) ?_ (by decide +kernel)
  refine fun q hq hd => mem_of_prod _ ?_ _ (by decide +kernel) q hq hd
  simp only [List.forall_mem_cons]
  refine ⟨?_, ?_, ?_, ?_, ?_, ?_, by simp⟩
  · norm_num
  · norm_num
  · norm_num
  · norm_num
  · norm_num
  · exact prime5

private theorem prime7 : Nat.Prime 132896956044521568488119 := by
  refine pratt _ 6 [2, 3, 22149492674086928081353] (by decide +kernel) (by decide +kernel) (by decide +kernel) ?_ (by decide +kernel)
  refine fun q hq hd => mem_of_prod _ ?_ _ (by decide +kernel) q hq hd
  simp only [List.forall_mem_cons]
  refine ⟨?_, ?_, ?_, by simp⟩
  · norm_num
  · norm_num
  · exact prime6

private theorem prime8 : Nat.Prime 255515944373312847190720520512484175977 := by
  refine pratt _ 3 [2, 2, 2, 7, 7, 11, 1627, 2657, 4423, 107590001, 7240687, 96557, 41201] (by decide +kernel) (by decide +kernel) (by decide +kernel) ?_ (by decide +kernel)
  refine fun q hq hd => mem_of_prod _ ?_ _ (by decide +kernel) q hq hd
  simp only [List.forall_mem_cons]
  refine ⟨?_, ?_, ?_, ?_, ?_, ?_, ?_, ?_, ?_, ?_, ?_, ?_, ?_, by simp⟩
  · norm_num
  · norm_num
  · norm_num
  · norm_num
  · norm_num
  · norm_num
  · norm_num
  · norm_num
  · norm_num
  · exact prime4
  · exact prime2
  · norm_num
  · norm_num

private theorem prime9 : Nat.Prime 205115282021455665897114700593932402728804164701536103180137503955397371 := by
  refine pratt _ 10 [2, 3, 5, 29, 29, 31, 7723, 132896956044521568488119, 255515944373312847190720520512484175977] (by decide +kernel) (by decide +kernel) (by decide +kernel) ?_ (by decide +kernel)
  refine fun q hq hd => mem_of_prod _ ?_ _ (by decide +kernel) q hq hd
  simp only [List.forall_mem_cons]
  refine ⟨?_, ?_, ?_, ?_, ?_, ?_, ?_, ?_, ?_, by simp⟩
  · norm_num
  · norm_num
  · norm_num
  · norm_num
  · norm_num
  · norm_num
  · norm_num
  · exact prime7
  · exact prime8

theorem prime_fieldPrime : Nat.Prime fieldPrime := by
  refine pratt _ 3 [2, 3, 7, 13441, 205115282021455665897114700593932402728804164701536103180137503955397371] (by decide +kernel) (by decide +kernel) (by decide +kernel) ?_ (by decide +kernel)
  refine fun q hq hd => mem_of_prod _ ?_ _ (by decide +kernel) q hq hd
  simp only [List.forall_mem_cons]
  refine ⟨?_, ?_, ?_, ?_, ?_, by simp⟩
  · norm_num
  · norm_num
  · norm_num
  · norm_num
  · exact prime9

end Verif.EthKey
