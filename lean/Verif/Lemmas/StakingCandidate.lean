import Verif.Model.StakingCandidate
import Verif.Lemmas.StakingSet

/-! # Nomination lists of one candidate -/

namespace Verif.Staking

/-- Sum of the amounts in a list. -/
def sumAmt (l : List Bond) : Nat := (l.map Bond.amount).sum

@[simp] theorem sumAmt_nil : sumAmt [] = 0 := rfl
@[simp] theorem sumAmt_cons (b : Bond) (l : List Bond) : sumAmt (b :: l) = b.amount + sumAmt l := rfl
theorem sumAmt_append (l r : List Bond) : sumAmt (l ++ r) = sumAmt l + sumAmt r := by
  induction l with
  | nil => simp
  | cons x l ih => simp [ih]; omega
theorem sumAmt_perm {l r : List Bond} (h : l.Perm r) : sumAmt l = sumAmt r := by
  induction h with
  | nil => rfl
  | cons x _ ih => simp [ih]
  | swap x y l => simp; omega
  | trans _ _ h1 h2 => rw [h1, h2]

/-- Sorted by amount, greatest first. -/
def Desc (l : List Bond) : Prop := l.Pairwise (fun a b => b.amount ≤ a.amount)

/-- Owners are pairwise different. -/
def Uniq (l : List Bond) : Prop := (l.map Bond.owner).Nodup

theorem Uniq.perm {l r : List Bond} (h : l.Perm r) (u : Uniq r) : Uniq l := (h.map Bond.owner).nodup_iff.2 u

theorem Uniq.eq {l : List Bond} (u : Uniq l) {x y : Bond} (hx : x ∈ l) (hy : y ∈ l) (e : x.owner = y.owner) : x = y := by
  induction l with
  | nil => cases hx
  | cons z l ih =>
    have h := List.nodup_cons.1 (show ((z.owner) :: l.map Bond.owner).Nodup from u)
    rcases List.mem_cons.1 hx with rfl | hx'
    · rcases List.mem_cons.1 hy with rfl | hy'
      · rfl
      · exact absurd (by rw [e]; exact List.mem_map_of_mem hy') h.1
    · rcases List.mem_cons.1 hy with rfl | hy'
      · exact absurd (by rw [← e]; exact List.mem_map_of_mem hx') h.1
      · exact ih h.2 hx' hy'

/-! ### The ends of a sorted list -/

theorem Desc.last_le {l : List Bond} (h : Desc l) {t : Bond} (ht : l.getLast? = some t) : ∀ x ∈ l, t.amount ≤ x.amount := by
  intro x hx
  obtain ⟨i, rfl⟩ : ∃ i, l = i ++ [t] := by
    obtain ⟨hne, he⟩ := List.getLast?_eq_some_iff.1 ht
    exact ⟨_, he⟩
  rcases List.mem_append.1 hx with h1 | h1
  · exact (List.pairwise_append.1 h).2.2 x h1 t (by simp)
  · rw [List.mem_singleton.1 h1]; exact Nat.le_refl _

theorem Desc.le_head {l : List Bond} (h : Desc l) {t : Bond} (ht : l.head? = some t) : ∀ x ∈ l, x.amount ≤ t.amount := by
  cases l with
  | nil => cases ht
  | cons y l =>
    simp only [List.head?_cons, Option.some.injEq] at ht
    subst ht
    intro x hx
    rcases List.mem_cons.1 hx with rfl | hx
    · exact Nat.le_refl _
    · exact (List.pairwise_cons.1 h).1 x hx

theorem lowestAmount_le {l : List Bond} (h : Desc l) : ∀ x ∈ l, lowestAmount l ≤ x.amount := by
  intro x hx
  unfold lowestAmount
  cases hl : l.getLast? with
  | none => simp
  | some t => simpa using h.last_le hl x hx

theorem le_highestAmount {l : List Bond} (h : Desc l) : ∀ x ∈ l, x.amount ≤ highestAmount l := by
  intro x hx
  unfold highestAmount
  cases hl : l.head? with
  | none => cases l <;> simp_all
  | some t => simpa using h.le_head hl x hx

theorem eq_dropLast_append {l : List Bond} {t : Bond} (h : l.getLast? = some t) : l = l.dropLast ++ [t] := by
  obtain ⟨p, rfl⟩ := List.getLast?_eq_some_iff.1 h
  simp

/-! ### Sorted insertion -/

theorem Desc.mono {l : List Bond} (h : Desc l) (a : Nat) : MonoOn (amountCmp a) l := by
  intro i j x y hij hx hy
  have hle : y.amount ≤ x.amount := by
    obtain ⟨hi, rfl⟩ := List.getElem?_eq_some_iff.1 hx
    obtain ⟨hj, rfl⟩ := List.getElem?_eq_some_iff.1 hy
    by_cases e : i = j
    · subst e; exact Nat.le_refl _
    · exact (List.pairwise_iff_getElem.1 h) i j hi hj (by omega)
  constructor
  · intro h2; simp only [amountCmp, Nat.compare_eq_lt] at *; omega
  · intro h2; simp only [amountCmp, Nat.compare_eq_gt] at *; omega

theorem skipEqual_spec {l : List Bond} (h : Desc l) (a : Nat) : ∀ n i, l.length - i = n → i ≤ l.length →
    (∀ (j : Nat) x, l[j]? = some x → j < i → a ≤ x.amount) →
    (∀ (j : Nat) x, l[j]? = some x → i ≤ j → x.amount ≤ a) →
    skipEqual l a i ≤ l.length ∧ (∀ (j : Nat) x, l[j]? = some x → j < skipEqual l a i → a ≤ x.amount) ∧
      ∀ (j : Nat) x, l[j]? = some x → skipEqual l a i ≤ j → x.amount < a := by
  intro n
  induction n with
  | zero =>
    intro i hn hi h1 h2
    rw [skipEqual, dif_neg (by omega)]
    refine ⟨hi, h1, ?_⟩
    intro j x hj hle
    have := (List.getElem?_eq_some_iff.1 hj).1
    omega
  | succ n ih =>
    intro i hn hi h1 h2
    have hlt : i < l.length := by omega
    rw [skipEqual, dif_pos hlt]
    by_cases e : l[i].amount = a
    · rw [if_pos e]
      refine ih (i + 1) (by omega) (by omega) ?_ ?_
      · intro j x hj hji
        by_cases hji' : j = i
        · subst hji'
          rw [List.getElem?_eq_getElem hlt] at hj
          injection hj with hj
          rw [← hj, e]; exact Nat.le_refl _
        · exact h1 j x hj (by omega)
      · intro j x hj hji
        exact h2 j x hj (by omega)
    · rw [if_neg e]
      refine ⟨hi, h1, ?_⟩
      intro j x hj hij
      have hi' := h2 i _ (List.getElem?_eq_getElem hlt) (Nat.le_refl _)
      obtain ⟨hjl, rfl⟩ := List.getElem?_eq_some_iff.1 hj
      by_cases hji : i = j
      · subst hji; omega
      · have := (List.pairwise_iff_getElem.1 h) i j hlt hjl (by omega)
        omega

/-- Inserting at a position that separates the larger or equal from the smaller amounts. -/
theorem split_at {l : List Bond} {a i : Nat} (hi : i ≤ l.length)
    (h1 : ∀ (j : Nat) x, l[j]? = some x → j < i → a ≤ x.amount) (h2 : ∀ (j : Nat) x, l[j]? = some x → i ≤ j → x.amount < a)
    (b : Bond) :
    ∃ p q, l = p ++ q ∧ l.insertIdx i b = p ++ b :: q ∧ (∀ x ∈ p, a ≤ x.amount) ∧ ∀ x ∈ q, x.amount < a := by
  refine ⟨l.take i, l.drop i, (List.take_append_drop i l).symm, ?_, ?_, ?_⟩
  · have := insertIdx_append_length (l.take i) (l.drop i) b
    rw [List.take_append_drop, List.length_take, Nat.min_eq_left hi] at this
    exact this
  · intro x hx
    obtain ⟨j, hj⟩ := List.mem_iff_getElem?.1 hx
    rw [List.getElem?_take] at hj
    by_cases hji : j < i
    · rw [if_pos hji] at hj; exact h1 j x hj hji
    · rw [if_neg hji] at hj; cases hj
  · intro x hx
    obtain ⟨j, hj⟩ := List.mem_iff_getElem?.1 hx
    rw [List.getElem?_drop] at hj
    exact h2 (i + j) x hj (by omega)

/-- `insert_sorted_greatest_to_least` on a sorted list with room: after everything larger or equal, before everything smaller. -/
theorem insertSorted_spec {l : List Bond} (h : Desc l) (hc : l.length < vecCap) (t : Nat) (b : Bond) :
    ∃ p q, l = p ++ q ∧ insertSorted ⟨l, t⟩ b = ⟨p ++ b :: q, t + b.amount⟩ ∧
      (∀ x ∈ p, b.amount ≤ x.amount) ∧ ∀ x ∈ q, x.amount < b.amount := by
  unfold insertSorted tryPush tryInsertAt
  dsimp only
  by_cases hlast : (l.getLast?).any (fun x => decide (x.amount = b.amount)) = true
  · rw [if_pos hlast, if_pos hc]
    refine ⟨l, [], by simp, rfl, ?_, by simp⟩
    cases hl : l.getLast? with
    | none => rw [hl] at hlast; simp at hlast
    | some t =>
      rw [hl] at hlast
      simp only [Option.any_some, decide_eq_true_eq] at hlast
      intro x hx
      rw [← hlast]; exact h.last_le hl x hx
  · rw [if_neg hlast]
    have hs := bsearch_ok _ _ (h.mono b.amount)
    cases hb : bsearch (amountCmp b.amount) l with
    | ok i =>
      rw [hb] at hs
      obtain ⟨x, hx, he⟩ := hs
      have he : x.amount = b.amount := by
        simp only [amountCmp, Nat.compare_eq_eq] at he; exact he.symm
      obtain ⟨hi, hxe⟩ := List.getElem?_eq_some_iff.1 hx
      obtain ⟨h1, h2, h3⟩ := skipEqual_spec h b.amount _ (i + 1) rfl (by omega)
        (by
          intro j y hy hji
          obtain ⟨hj, rfl⟩ := List.getElem?_eq_some_iff.1 hy
          by_cases e : j = i
          · subst e; rw [hxe, he]; exact Nat.le_refl _
          · have := (List.pairwise_iff_getElem.1 h) j i hj hi (by omega)
            rw [hxe] at this; omega)
        (by
          intro j y hy hij
          obtain ⟨hj, rfl⟩ := List.getElem?_eq_some_iff.1 hy
          have := (List.pairwise_iff_getElem.1 h) i j hi hj (by omega)
          rw [hxe] at this; omega)
      obtain ⟨p, q, e1, e2, e3, e4⟩ := split_at h1 h2 h3 b
      dsimp only
      rw [if_pos hc]
      exact ⟨p, q, e1, by rw [e2], e3, e4⟩
    | error i =>
      rw [hb] at hs
      obtain ⟨hi, h1, h2⟩ := hs
      obtain ⟨p, q, e1, e2, e3, e4⟩ := split_at (a := b.amount) hi
        (by intro j x hj hji; have := h1 j x hj hji; simp only [amountCmp, Nat.compare_eq_lt] at this; omega)
        (by intro j x hj hji; have := h2 j x hj hji; simp only [amountCmp, Nat.compare_eq_gt] at this; omega) b
      dsimp only
      rw [if_pos hc]
      exact ⟨p, q, e1, by rw [e2], e3, e4⟩

theorem insertSorted_total (n : Noms) (b : Bond) : (insertSorted n b).total = n.total + b.amount := rfl

theorem insertSorted_perm {n : Noms} (h : Desc n.list) (hc : n.list.length < vecCap) (b : Bond) :
    (insertSorted n b).list.Perm (b :: n.list) := by
  obtain ⟨p, q, e1, e2, _, _⟩ := insertSorted_spec h hc n.total b
  rw [show insertSorted n b = _ from e2, e1]
  exact List.perm_middle

theorem insertSorted_desc {n : Noms} (h : Desc n.list) (hc : n.list.length < vecCap) (b : Bond) :
    Desc (insertSorted n b).list := by
  obtain ⟨p, q, e1, e2, h1, h2⟩ := insertSorted_spec h hc n.total b
  rw [show insertSorted n b = _ from e2]
  rw [e1] at h
  obtain ⟨a1, a2, a3⟩ := List.pairwise_append.1 h
  refine List.pairwise_append.2 ⟨a1, List.pairwise_cons.2 ⟨fun x hx => Nat.le_of_lt (h2 x hx), a2⟩, ?_⟩
  intro x hx y hy
  rcases List.mem_cons.1 hy with rfl | hy
  · exact h1 x hx
  · exact a3 x hx y hy

theorem insertSorted_length {n : Noms} (h : Desc n.list) (hc : n.list.length < vecCap) (b : Bond) :
    (insertSorted n b).list.length = n.list.length + 1 := by
  rw [(insertSorted_perm h hc b).length_eq]; rfl

/-! ### Sorting, filtering, adjusting -/

theorem sortNoms_perm (l : List Bond) : (sortNoms l).Perm l := stableSort_perm _ _

theorem sortNoms_desc (l : List Bond) : Desc (sortNoms l) := by
  have := stableSort_sorted (le := amountGe)
    (by intro a b c; simp only [amountGe, decide_eq_true_eq]; omega)
    (by intro a b; simp only [amountGe, decide_eq_true_eq]; omega) l
  exact this.imp (by intro a b h; simpa [amountGe] using h)

theorem findOwner_some {l : List Bond} {n : Nat} {d : Bond} (h : findOwner l n = some d) : d ∈ l ∧ d.owner = n :=
  ⟨List.mem_of_find?_eq_some h, by simpa [findOwner] using List.find?_some h⟩

theorem findOwner_none {l : List Bond} {n : Nat} (h : findOwner l n = none) : ∀ x ∈ l, x.owner ≠ n := by
  intro x hx
  have := List.find?_eq_none.1 h x hx
  simpa using this

theorem findOwner_mem {l : List Bond} (u : Uniq l) {d : Bond} (hd : d ∈ l) : findOwner l d.owner = some d := by
  cases h : findOwner l d.owner with
  | none => exact absurd rfl (findOwner_none h d hd)
  | some e =>
    have := findOwner_some h
    rw [u.eq this.1 hd this.2]

theorem without_of_absent {l : List Bond} {n : Nat} (h : ∀ x ∈ l, x.owner ≠ n) : without l n = l := by
  unfold without
  rw [List.filter_eq_self]
  intro x hx; simpa using h x hx

theorem without_perm {l : List Bond} (u : Uniq l) {d : Bond} (hd : d ∈ l) : l.Perm (d :: without l d.owner) := by
  induction l with
  | nil => cases hd
  | cons x l ih =>
    have h := List.nodup_cons.1 (show ((x.owner) :: l.map Bond.owner).Nodup from u)
    rcases List.mem_cons.1 hd with rfl | hd'
    · have hab : ∀ y ∈ l, y.owner ≠ d.owner := by
        intro y hy e; exact h.1 (by rw [← e]; exact List.mem_map_of_mem hy)
      have : without (d :: l) d.owner = l := by
        show List.filter _ (d :: l) = l
        rw [List.filter_cons_of_neg (by simp)]
        exact without_of_absent hab
      rw [this]
    · have hne : x.owner ≠ d.owner := by
        intro e; exact h.1 (by rw [e]; exact List.mem_map_of_mem hd')
      have : without (x :: l) d.owner = x :: without l d.owner := by
        show List.filter _ (x :: l) = _
        rw [List.filter_cons_of_pos (by simpa using hne)]; rfl
      rw [this]
      exact ((ih h.2 hd').cons x).trans (List.Perm.swap d x _)

theorem without_append (l r : List Bond) (n : Nat) : without (l ++ r) n = without l n ++ without r n := List.filter_append ..

theorem adjust_append (l r : List Bond) (n : Nat) (f : Nat → Nat) : adjust (l ++ r) n f = adjust l n f ++ adjust r n f :=
  List.map_append ..

theorem adjust_of_absent {l : List Bond} {n : Nat} (f : Nat → Nat) (h : ∀ x ∈ l, x.owner ≠ n) : adjust l n f = l := by
  unfold adjust
  conv => rhs; rw [← List.map_id l]
  refine List.map_congr_left ?_
  intro x hx
  rw [if_pos (h x hx)]; rfl

theorem adjust_owner (l : List Bond) (n : Nat) (f : Nat → Nat) : (adjust l n f).map Bond.owner = l.map Bond.owner := by
  unfold adjust
  rw [List.map_map]
  refine List.map_congr_left ?_
  intro x _
  show Bond.owner (if x.owner ≠ n then x else ⟨x.owner, f x.amount⟩) = x.owner
  by_cases h : x.owner ≠ n
  · rw [if_pos h]
  · rw [if_neg h]

theorem adjust_perm {l r : List Bond} (h : l.Perm r) (n : Nat) (f : Nat → Nat) : (adjust l n f).Perm (adjust r n f) := h.map _

theorem without_perm' {l r : List Bond} (h : l.Perm r) (n : Nat) : (without l n).Perm (without r n) := h.filter _

/-- Changing one nomination is removing it and adding the changed one. -/
theorem adjust_split {l : List Bond} (u : Uniq l) {d : Bond} (hd : d ∈ l) (f : Nat → Nat) :
    (adjust l d.owner f).Perm (⟨d.owner, f d.amount⟩ :: without l d.owner) := by
  refine (adjust_perm (without_perm u hd) d.owner f).trans ?_
  have : adjust (d :: without l d.owner) d.owner f = ⟨d.owner, f d.amount⟩ :: adjust (without l d.owner) d.owner f := by
    simp [adjust]
  rw [this, adjust_of_absent]
  intro x hx
  simpa [without] using (List.mem_filter.1 hx).2

theorem adjust_length (l : List Bond) (n : Nat) (f : Nat → Nat) : (adjust l n f).length = l.length := List.length_map ..

theorem Desc.sublist {l r : List Bond} (h : Desc r) (hs : l.Sublist r) : Desc l := List.Pairwise.sublist hs h

theorem without_sublist (l : List Bond) (n : Nat) : (without l n).Sublist l := List.filter_sublist

theorem without_mem {l : List Bond} {n : Nat} {x : Bond} : x ∈ without l n ↔ x ∈ l ∧ x.owner ≠ n := by
  simp [without, List.mem_filter]

/-! ### Pool -/

/-- Replacing an entry of the pool. -/
theorem updateActive_spec {cfg : Cfg} {pool : List Bond} (hs : KeySorted Bond.owner pool) (hc : pool.length ≤ cfg.maxPool) (c t : Nat)
    (hp : ∃ x ∈ pool, x.owner = c) :
    KeySorted Bond.owner (updateActive cfg pool c t) ∧ (updateActive cfg pool c t).length = pool.length ∧
    ∀ x, x ∈ updateActive cfg pool c t ↔ (x = ⟨c, t⟩ ∨ (x ∈ pool ∧ x.owner ≠ c)) := by
  obtain ⟨d, hd, rfl⟩ := hp
  unfold updateActive
  rcases (setRemove_cases hs d.owner).symm with ⟨h0, _⟩ | ⟨_, e⟩
  · exact absurd rfl (h0 d hd)
  rw [e]
  dsimp only
  have hu : Uniq pool := by
    unfold Uniq
    rw [List.nodup_iff_pairwise_ne, List.pairwise_map]
    exact hs.imp (by intro a b h; omega)
  have hw : (pool.filter (fun y => decide (y.owner ≠ d.owner))) = without pool d.owner := rfl
  rw [hw]
  have hlen : (without pool d.owner).length + 1 = pool.length := by
    rw [(without_perm hu hd).length_eq]; rfl
  have hs' : KeySorted Bond.owner (without pool d.owner) := List.Pairwise.filter _ hs
  rcases setInsert_cases hs' cfg.maxPool ⟨d.owner, t⟩ with ⟨⟨x, hx, hxo⟩, _⟩ | ⟨a, b, hl, ha, hb, e2⟩
  · exact absurd hxo (without_mem.1 hx).2
  · rw [if_pos (by omega)] at e2
    rw [e2]
    dsimp only
    refine ⟨?_, ?_, ?_⟩
    · rw [hl] at hs'; exact hs'.insert ha hb
    · rw [hl] at hlen; simp only [List.length_append, List.length_cons] at *; omega
    · intro x
      rw [← without_mem, hl]
      simp only [List.mem_append, List.mem_cons]
      constructor
      · rintro (h | h | h)
        · exact Or.inr (Or.inl h)
        · exact Or.inl h
        · exact Or.inr (Or.inr h)
      · rintro (h | h | h)
        · exact Or.inr (Or.inl h)
        · exact Or.inl h
        · exact Or.inr (Or.inr h)

end Verif.Staking
