import Verif.Model.StakingSet

/-! # Binary search and ordered sets -/

namespace Verif.Staking

/-- `f` is monotone along the list: first everything below the target, then matches, then everything above. -/
def MonoOn {α : Type _} (f : α → Ordering) (l : List α) : Prop :=
  ∀ (i j : Nat) x y, i ≤ j → l[i]? = some x → l[j]? = some y →
    (f y = .lt → f x = .lt) ∧ (f x = .gt → f y = .gt)

/-- The documented contract of `binary_search_by` on a monotone list. -/
def SearchOk {α : Type _} (f : α → Ordering) (l : List α) : Except Nat Nat → Prop
  | .ok i => ∃ x, l[i]? = some x ∧ f x = .eq
  | .error i => i ≤ l.length ∧ (∀ j x, l[j]? = some x → j < i → f x = .lt) ∧
      ∀ j x, l[j]? = some x → i ≤ j → f x = .gt

theorem bsearchLoop_ok {α : Type _} (f : α → Ordering) (l : List α) (hm : MonoOn f l) :
    ∀ n left right, right - left = n → left ≤ right → right ≤ l.length →
      (∀ j x, l[j]? = some x → j < left → f x = .lt) →
      (∀ j x, l[j]? = some x → right ≤ j → f x = .gt) →
      SearchOk f l (bsearchLoop f l left right) := by
  intro n
  induction n using Nat.strongRecOn with
  | ind n ih =>
    intro left right hn hlr hr hlo hhi
    rw [bsearchLoop]
    by_cases h : left < right
    · rw [dif_pos h]
      have hmid : left + (right - left) / 2 < right := by omega
      generalize hmd : left + (right - left) / 2 = mid at *
      have hml : mid < l.length := by omega
      rw [List.getElem?_eq_getElem hml]
      dsimp only
      cases hc : f l[mid] with
      | lt =>
        dsimp only
        refine ih (right - (mid + 1)) (by omega) _ _ rfl (by omega) hr ?_ hhi
        intro j x hj hlt
        exact (hm j mid x l[mid] (by omega) hj (List.getElem?_eq_getElem hml)).1 hc
      | gt =>
        dsimp only
        refine ih (mid - left) (by omega) _ _ rfl (by omega) (by omega) hlo ?_
        intro j x hj hle
        exact (hm mid j l[mid] x hle (List.getElem?_eq_getElem hml) hj).2 hc
      | eq =>
        exact ⟨l[mid], List.getElem?_eq_getElem hml, hc⟩
    · rw [dif_neg h]
      have : left = right := by omega
      subst this
      exact ⟨hr, hlo, hhi⟩

theorem bsearch_ok {α : Type _} (f : α → Ordering) (l : List α) (hm : MonoOn f l) : SearchOk f l (bsearch f l) := by
  refine bsearchLoop_ok f l hm _ 0 l.length rfl (by omega) (by omega) (by omega) ?_
  intro j x hj hle
  have := (List.getElem?_eq_some_iff.1 hj).1
  omega

/-- Strictly increasing keys. -/
def KeySorted {α : Type _} (key : α → Nat) (l : List α) : Prop := l.Pairwise (fun a b => key a < key b)

theorem KeySorted.mono {α : Type _} {key : α → Nat} {l : List α} (h : KeySorted key l) (k : Nat) :
    MonoOn (keyCmp key k) l := by
  intro i j x y hij hx hy
  have hle : key x ≤ key y := by
    obtain ⟨hi, rfl⟩ := List.getElem?_eq_some_iff.1 hx
    obtain ⟨hj, rfl⟩ := List.getElem?_eq_some_iff.1 hy
    by_cases e : i = j
    · subst e; exact Nat.le_refl _
    · exact Nat.le_of_lt ((List.pairwise_iff_getElem.1 h) i j hi hj (by omega))
  constructor
  · intro h2; simp only [keyCmp, Nat.compare_eq_lt] at *; omega
  · intro h2; simp only [keyCmp, Nat.compare_eq_gt] at *; omega

/-- The position found in a strictly sorted list, and what the list looks like around it. -/
theorem bsearch_key {α : Type _} {key : α → Nat} {l : List α} (h : KeySorted key l) (k : Nat) :
    (∃ i x, bsearch (keyCmp key k) l = .ok i ∧ l[i]? = some x ∧ key x = k) ∨
    (∃ a b, bsearch (keyCmp key k) l = .error a.length ∧ l = a ++ b ∧ (∀ x ∈ a, key x < k) ∧ ∀ x ∈ b, k < key x) := by
  have hs := bsearch_ok _ _ (h.mono k)
  cases hb : bsearch (keyCmp key k) l with
  | ok i =>
    rw [hb] at hs
    obtain ⟨x, hx, he⟩ := hs
    left
    exact ⟨i, x, rfl, hx, by simpa [keyCmp] using he⟩
  | error i =>
    rw [hb] at hs
    obtain ⟨hi, h1, h2⟩ := hs
    right
    refine ⟨l.take i, l.drop i, ?_, (List.take_append_drop i l).symm, ?_, ?_⟩
    · simp [Nat.min_eq_left hi]
    · intro x hx
      obtain ⟨j, hj⟩ := List.mem_iff_getElem?.1 hx
      rw [List.getElem?_take] at hj
      by_cases hji : j < i
      · rw [if_pos hji] at hj
        have := h1 j x hj hji
        simpa [keyCmp, Nat.compare_eq_lt] using this
      · rw [if_neg hji] at hj; cases hj
    · intro x hx
      obtain ⟨j, hj⟩ := List.mem_iff_getElem?.1 hx
      rw [List.getElem?_drop] at hj
      have := h2 (i + j) x hj (by omega)
      simpa [keyCmp, Nat.compare_eq_gt] using this

theorem insertIdx_append_length {α : Type _} (a b : List α) (v : α) : (a ++ b).insertIdx a.length v = a ++ v :: b := by
  induction a with
  | nil => simp
  | cons x a ih => simp [ih]

theorem KeySorted.unique {α : Type _} {key : α → Nat} {l : List α} (h : KeySorted key l) {x y : α} (hx : x ∈ l) (hy : y ∈ l)
    (e : key x = key y) : x = y := by
  obtain ⟨i, hi, rfl⟩ := List.getElem_of_mem hx
  obtain ⟨j, hj, rfl⟩ := List.getElem_of_mem hy
  rcases Nat.lt_trichotomy i j with h1 | h1 | h1
  · have := (List.pairwise_iff_getElem.1 h) i j hi hj h1; omega
  · subst h1; rfl
  · have := (List.pairwise_iff_getElem.1 h) j i hj hi h1; omega

/-- Insertion by cases. -/
theorem setInsert_cases {α : Type _} {key : α → Nat} {l : List α} (h : KeySorted key l) (cap : Nat) (v : α) :
    ((∃ x ∈ l, key x = key v) ∧ setInsert key cap l v = (.present, l)) ∨
    (∃ a b, l = a ++ b ∧ (∀ x ∈ a, key x < key v) ∧ (∀ x ∈ b, key v < key x) ∧
      setInsert key cap l v = if l.length < cap then (.added, a ++ v :: b) else (.full, l)) := by
  rcases bsearch_key h (key v) with ⟨i, x, hb, hx, hk⟩ | ⟨a, b, hb, hl, ha, hbb⟩
  · left
    refine ⟨⟨x, List.mem_of_getElem? hx, hk⟩, ?_⟩
    unfold setInsert; rw [hb]
  · right
    refine ⟨a, b, hl, ha, hbb, ?_⟩
    unfold setInsert; rw [hb]; dsimp only
    rw [show l.insertIdx a.length v = a ++ v :: b by rw [hl]; exact insertIdx_append_length a b v]

theorem eraseIdx_filter {α : Type _} {key : α → Nat} {l : List α} (h : KeySorted key l) {i : Nat} {x : α}
    (hx : l[i]? = some x) : l.eraseIdx i = l.filter (fun y => decide (key y ≠ key x)) := by
  induction l generalizing i with
  | nil => simp at hx
  | cons y l ih =>
    have hy := (List.pairwise_cons.1 h).1
    have hl := (List.pairwise_cons.1 h).2
    cases i with
    | zero =>
      simp only [List.getElem?_cons_zero, Option.some.injEq] at hx
      subst hx
      rw [List.eraseIdx_cons_zero, List.filter_cons_of_neg (by simp)]
      symm
      rw [List.filter_eq_self]
      intro z hz
      have := hy z hz
      simp; omega
    | succ i =>
      simp only [List.getElem?_cons_succ] at hx
      rw [List.eraseIdx_cons_succ, ih hl hx, List.filter_cons_of_pos]
      have := hy x (List.mem_of_getElem? hx)
      simp; omega

/-- Removal by cases. -/
theorem setRemove_cases {α : Type _} {key : α → Nat} {l : List α} (h : KeySorted key l) (k : Nat) :
    ((∃ x ∈ l, key x = k) ∧ setRemove key l k = (true, l.filter (fun y => decide (key y ≠ k)))) ∨
    ((∀ x ∈ l, key x ≠ k) ∧ setRemove key l k = (false, l)) := by
  rcases bsearch_key h k with ⟨i, x, hb, hx, hk⟩ | ⟨a, b, hb, hl, ha, hbb⟩
  · left
    refine ⟨⟨x, List.mem_of_getElem? hx, hk⟩, ?_⟩
    unfold setRemove; rw [hb]; dsimp only
    rw [eraseIdx_filter h hx, hk]
  · right
    refine ⟨?_, ?_⟩
    · intro x hx
      rw [hl] at hx
      rcases List.mem_append.1 hx with h1 | h1
      · have := ha x h1; omega
      · have := hbb x h1; omega
    · unfold setRemove; rw [hb]

theorem setContains_iff {α : Type _} {key : α → Nat} {l : List α} (h : KeySorted key l) (k : Nat) :
    setContains key l k = true ↔ ∃ x ∈ l, key x = k := by
  rcases bsearch_key h k with ⟨i, x, hb, hx, hk⟩ | ⟨a, b, hb, hl, ha, hbb⟩
  · unfold setContains; rw [hb]
    simp only [true_iff]
    exact ⟨x, List.mem_of_getElem? hx, hk⟩
  · unfold setContains; rw [hb]
    simp only [Bool.false_eq_true, false_iff]
    rintro ⟨x, hx, e⟩
    rw [hl] at hx
    rcases List.mem_append.1 hx with h1 | h1
    · have := ha x h1; omega
    · have := hbb x h1; omega

theorem KeySorted.insert {α : Type _} {key : α → Nat} {a b : List α} {v : α} (h : KeySorted key (a ++ b))
    (ha : ∀ x ∈ a, key x < key v) (hb : ∀ x ∈ b, key v < key x) : KeySorted key (a ++ v :: b) := by
  obtain ⟨h1, h2, h3⟩ := List.pairwise_append.1 h
  refine List.pairwise_append.2 ⟨h1, List.pairwise_cons.2 ⟨hb, h2⟩, ?_⟩
  intro x hx y hy
  rcases List.mem_cons.1 hy with rfl | hy
  · exact ha x hx
  · exact h3 x hx y hy

theorem setInsert_sorted {α : Type _} {key : α → Nat} {l : List α} (h : KeySorted key l) (cap : Nat) (v : α) :
    KeySorted key (setInsert key cap l v).2 := by
  rcases setInsert_cases h cap v with ⟨_, e⟩ | ⟨a, b, hl, ha, hb, e⟩
  · rw [e]; exact h
  · rw [e]
    by_cases hc : l.length < cap
    · rw [if_pos hc]; rw [hl] at h; exact h.insert ha hb
    · rw [if_neg hc]; exact h

theorem setRemove_sorted {α : Type _} {key : α → Nat} {l : List α} (h : KeySorted key l) (k : Nat) :
    KeySorted key (setRemove key l k).2 := by
  rcases setRemove_cases h k with ⟨_, e⟩ | ⟨_, e⟩
  · rw [e]; exact List.Pairwise.filter _ h
  · rw [e]; exact h

theorem setStep_sorted {α : Type _} {key : α → Nat} {cap : Nat} {l : List α} (h : KeySorted key l) (op : SetOp α) :
    KeySorted key (setStep key cap l op).2 := by
  cases op with
  | insert v => exact setInsert_sorted h cap v
  | remove k => exact setRemove_sorted h k
  | contains k => exact h

theorem setInsert_length {α : Type _} {key : α → Nat} {l : List α} (h : KeySorted key l) {cap : Nat} (hc : l.length ≤ cap) (v : α) :
    (setInsert key cap l v).2.length ≤ cap := by
  rcases setInsert_cases h cap v with ⟨_, e⟩ | ⟨a, b, hl, ha, hb, e⟩
  · rw [e]; exact hc
  · rw [e]
    by_cases hc' : l.length < cap
    · rw [if_pos hc']; rw [hl] at hc'; simp only [List.length_append, List.length_cons] at *; omega
    · rw [if_neg hc']; exact hc

theorem setStep_length {α : Type _} {key : α → Nat} {cap : Nat} {l : List α} (h : KeySorted key l) (hc : l.length ≤ cap) (op : SetOp α) :
    (setStep key cap l op).2.length ≤ cap := by
  cases op with
  | insert v => exact setInsert_length h hc v
  | remove k =>
    show (setRemove key l k).2.length ≤ cap
    rcases setRemove_cases h k with ⟨_, e⟩ | ⟨_, e⟩
    · rw [e]; exact Nat.le_trans (List.length_filter_le _ _) hc
    · rw [e]; exact hc
  | contains k => exact hc

/-! ### `from` -/

theorem dedupFrom_head {α : Type _} (key : α → Nat) (x : α) (l : List α) :
    ∃ r, dedupFrom key (x :: l) = x :: r := by
  simp only [dedupFrom]
  cases dedupFrom key l with
  | nil => exact ⟨[], rfl⟩
  | cons y r =>
    dsimp only
    by_cases h : key x = key y
    · rw [if_pos h]; exact ⟨_, rfl⟩
    · rw [if_neg h]; exact ⟨_, rfl⟩

theorem dedupFrom_sublist {α : Type _} (key : α → Nat) (l : List α) : (dedupFrom key l).Sublist l := by
  induction l with
  | nil => exact List.Sublist.slnil
  | cons x l ih =>
    simp only [dedupFrom]
    cases hd : dedupFrom key l with
    | nil => rw [hd] at ih; exact ih.cons_cons x
    | cons y r =>
      rw [hd] at ih
      dsimp only
      by_cases h : key x = key y
      · rw [if_pos h]; exact (List.Sublist.trans (List.sublist_cons_self y r) ih).cons_cons x
      · rw [if_neg h]; exact ih.cons_cons x

theorem dedupFrom_keys {α : Type _} (key : α → Nat) (l : List α) (k : Nat) :
    (∃ x ∈ dedupFrom key l, key x = k) ↔ ∃ x ∈ l, key x = k := by
  induction l with
  | nil => simp [dedupFrom]
  | cons x l ih =>
    simp only [dedupFrom]
    cases hd : dedupFrom key l with
    | nil =>
      rw [hd] at ih
      simp only [List.not_mem_nil, false_and, exists_false, false_iff, List.mem_cons, exists_eq_or_imp] at *
      simp [ih]
    | cons y r =>
      rw [hd] at ih
      dsimp only
      by_cases h : key x = key y
      · rw [if_pos h]
        simp only [List.mem_cons, exists_eq_or_imp] at *
        rw [← ih, ← h]
        constructor
        · rintro (h1 | h1)
          · exact Or.inl h1
          · exact Or.inr (Or.inr h1)
        · rintro (h1 | h1 | h1)
          · exact Or.inl h1
          · exact Or.inl h1
          · exact Or.inr h1
      · rw [if_neg h]
        simp only [List.mem_cons, exists_eq_or_imp] at *
        rw [← ih]

theorem dedupFrom_sorted {α : Type _} (key : α → Nat) (l : List α) (h : l.Pairwise (fun a b => key a ≤ key b)) :
    KeySorted key (dedupFrom key l) := by
  induction l with
  | nil => exact List.Pairwise.nil
  | cons x l ih =>
    have hx := (List.pairwise_cons.1 h).1
    have ih := ih (List.pairwise_cons.1 h).2
    have hsub := dedupFrom_sublist key l
    simp only [dedupFrom]
    cases hd : dedupFrom key l with
    | nil => exact List.pairwise_singleton _ _
    | cons y r =>
      rw [hd] at ih hsub
      have hy := (List.pairwise_cons.1 ih).1
      have hr := (List.pairwise_cons.1 ih).2
      dsimp only
      by_cases e : key x = key y
      · rw [if_pos e]
        exact List.pairwise_cons.2 ⟨fun z hz => by have := hy z hz; omega, hr⟩
      · rw [if_neg e]
        refine List.pairwise_cons.2 ⟨?_, ih⟩
        have h1 := hx y (hsub.subset (List.mem_cons_self))
        intro z hz
        rcases List.mem_cons.1 hz with rfl | hz
        · omega
        · have := hy z hz; omega

/-! ### Stable sort -/

theorem sortInsert_perm {α : Type _} (le : α → α → Bool) (x : α) (l : List α) : (sortInsert le x l).Perm (x :: l) := by
  induction l with
  | nil => exact List.Perm.refl _
  | cons y l ih =>
    simp only [sortInsert]
    by_cases h : le x y = true
    · rw [if_pos h]
    · rw [if_neg h]; exact (ih.cons y).trans (List.Perm.swap x y l)

theorem stableSort_perm {α : Type _} (le : α → α → Bool) (l : List α) : (stableSort le l).Perm l := by
  induction l with
  | nil => exact List.Perm.refl _
  | cons x l ih => exact (sortInsert_perm le x _).trans (ih.cons x)

theorem sortInsert_sorted {α : Type _} {le : α → α → Bool} (ht : ∀ a b c, le a b = true → le b c = true → le a c = true)
    (hc : ∀ a b, le a b = true ∨ le b a = true) (x : α) {l : List α} (h : l.Pairwise (fun a b => le a b = true)) :
    (sortInsert le x l).Pairwise (fun a b => le a b = true) := by
  induction l with
  | nil => exact List.pairwise_singleton _ _
  | cons y l ih =>
    have hy := (List.pairwise_cons.1 h).1
    simp only [sortInsert]
    by_cases e : le x y = true
    · rw [if_pos e]
      refine List.pairwise_cons.2 ⟨?_, h⟩
      intro z hz
      rcases List.mem_cons.1 hz with rfl | hz
      · exact e
      · exact ht _ _ _ e (hy z hz)
    · rw [if_neg e]
      refine List.pairwise_cons.2 ⟨?_, ih (List.pairwise_cons.1 h).2⟩
      intro z hz
      rcases List.mem_cons.1 ((sortInsert_perm le x l).mem_iff.1 hz) with rfl | hz
      · exact (hc z y).resolve_left e
      · exact hy z hz

theorem stableSort_sorted {α : Type _} {le : α → α → Bool} (ht : ∀ a b c, le a b = true → le b c = true → le a c = true)
    (hc : ∀ a b, le a b = true ∨ le b a = true) (l : List α) : (stableSort le l).Pairwise (fun a b => le a b = true) := by
  induction l with
  | nil => exact List.Pairwise.nil
  | cons x l ih => exact sortInsert_sorted ht hc x ih

theorem setFrom_sorted {α : Type _} (key : α → Nat) (v : List α) : KeySorted key (setFrom key v) := by
  refine dedupFrom_sorted key _ ?_
  have := stableSort_sorted (le := keyLe key)
    (by intro a b c; simp only [keyLe, decide_eq_true_eq]; omega)
    (by intro a b; simp only [keyLe, decide_eq_true_eq]; omega) v
  exact this.imp (by intro a b h; simpa [keyLe] using h)

theorem setFrom_keys {α : Type _} (key : α → Nat) (v : List α) (k : Nat) :
    (∃ x ∈ setFrom key v, key x = k) ↔ ∃ x ∈ v, key x = k := by
  unfold setFrom
  rw [dedupFrom_keys]
  simp only [(stableSort_perm (keyLe key) v).mem_iff]

theorem setFrom_length {α : Type _} (key : α → Nat) (v : List α) : (setFrom key v).length ≤ v.length := by
  have := (dedupFrom_sublist key (stableSort (keyLe key) v)).length_le
  rw [(stableSort_perm (keyLe key) v).length_eq] at this
  exact this

end Verif.Staking
