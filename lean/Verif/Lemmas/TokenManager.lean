import Verif.Model.TokenManager
import Verif.Lemmas.Encoding
import Mathlib.Algebra.BigOperators.Group.Finset.Basic
import Mathlib.Algebra.BigOperators.Group.Finset.Piecewise
import Mathlib.Algebra.Order.BigOperators.Group.Finset

namespace Verif.TokenManager
open Verif.Lower

/-- `f` has finite support and its values add up to `n`. -/
def Total {α : Type} (f : α → Nat) (n : Nat) : Prop :=
  ∃ S : Finset α, (∀ a, a ∉ S → f a = 0) ∧ ∑ a ∈ S, f a = n

theorem Total.unique {α : Type} {f : α → Nat} {n m : Nat} (h : Total f n) (h' : Total f m) : n = m := by
  classical
  obtain ⟨S, hS, rfl⟩ := h
  obtain ⟨T, hT, rfl⟩ := h'
  have h1 : ∑ a ∈ S, f a = ∑ a ∈ S ∪ T, f a :=
    Finset.sum_subset Finset.subset_union_left (fun a _ ha => hS a ha)
  have h2 : ∑ a ∈ T, f a = ∑ a ∈ S ∪ T, f a :=
    Finset.sum_subset Finset.subset_union_right (fun a _ ha => hT a ha)
  rw [h1, h2]

theorem Total.le {α : Type} {f : α → Nat} {n : Nat} (h : Total f n) (a : α) : f a ≤ n := by
  obtain ⟨S, hS, rfl⟩ := h
  by_cases ha : a ∈ S
  · exact Finset.single_le_sum (f := f) (fun _ _ => Nat.zero_le _) ha
  · rw [hS a ha]; exact Nat.zero_le _

theorem Total.upd {α : Type} [DecidableEq α] {f : α → Nat} {n : Nat} (h : Total f n) (a : α) (v : Nat) :
    Total (Verif.upd f a v) (n - f a + v) := by
  have hle := h.le a
  obtain ⟨S, hS, rfl⟩ := h
  refine ⟨insert a S, ?_, ?_⟩
  · intro x hx
    rw [Finset.mem_insert, not_or] at hx
    rw [upd_ne _ _ hx.1, hS x hx.2]
  · have e1 : ∑ x ∈ S, f x = ∑ x ∈ insert a S, f x :=
      Finset.sum_subset (Finset.subset_insert a S) (fun x _ hx => hS x hx)
    rw [e1]
    have ha : a ∈ insert a S := Finset.mem_insert_self a S
    rw [← Finset.add_sum_erase _ _ ha, ← Finset.add_sum_erase _ f ha, upd_same]
    have e2 : ∑ x ∈ (insert a S).erase a, Verif.upd f a v x = ∑ x ∈ (insert a S).erase a, f x := by
      apply Finset.sum_congr rfl
      intro x hx
      exact upd_ne _ _ (Finset.ne_of_mem_erase hx)
    rw [e2]; omega

/-! Structural facts about `transactional`. -/

theorem transactional_none {s : State} {r : Res} (h : r.2 = none) : transactional s r = r := by
  unfold transactional; rw [h]

theorem transactional_some {s : State} {r : Res} {e : Err} (h : r.2 = some e) : transactional s r = (s, some e) := by
  unfold transactional; rw [h]

theorem transactional_err {s : State} {r : Res} : (transactional s r).2 = r.2 := by
  unfold transactional; split <;> simp_all

theorem transactional_cases (s : State) (r : Res) :
    (r.2 = none ∧ transactional s r = r) ∨ ((∃ e, r.2 = some e ∧ transactional s r = (s, some e))) := by
  cases h : r.2 with
  | none => exact .inl ⟨rfl, transactional_none h⟩
  | some e => exact .inr ⟨e, rfl, transactional_some h⟩

end Verif.TokenManager
