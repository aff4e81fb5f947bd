import Verif.Lemmas.StakingSet

/-!
# C40: ordered sets

Elements are looked up by key. The specification is a finite map from keys to elements with a size, `SpecSet`; it knows nothing
of lists, order or searching.
-/

namespace Verif.Staking

/-- The specification: a finite map with its size. -/
structure SpecSet (α : Type _) where
  get : Nat → Option α
  size : Nat

/-- The empty specification set. -/
def SpecSet.empty {α : Type _} : SpecSet α := ⟨fun _ => none, 0⟩

/-- What a call must answer and do, in set-theoretic terms. -/
def specStep {α : Type _} (key : α → Nat) (cap : Nat) (s : SpecSet α) : SetOp α → SetOut × SpecSet α
  | .insert v =>
    if (s.get (key v)).isSome then (.ins .present, s)
    else if s.size < cap then (.ins .added, ⟨upd s.get (key v) (some v), s.size + 1⟩)
    else (.ins .full, s)
  | .remove k =>
    if (s.get k).isSome then (.bool true, ⟨upd s.get k none, s.size - 1⟩) else (.bool false, s)
  | .contains k => (.bool (s.get k).isSome, s)

/-- A sequence of calls on the specification. -/
def specRun {α : Type _} (key : α → Nat) (cap : Nat) (s : SpecSet α) : List (SetOp α) → List SetOut × SpecSet α
  | [] => ([], s)
  | op :: ops =>
    ((specStep key cap s op).1 :: (specRun key cap (specStep key cap s op).2 ops).1,
     (specRun key cap (specStep key cap s op).2 ops).2)

/-- The stored list is the specification's map listed by increasing key. -/
structure Refines {α : Type _} (key : α → Nat) (l : List α) (s : SpecSet α) : Prop where
  sorted : l.Pairwise (fun a b => key a < key b)
  mem : ∀ k x, s.get k = some x ↔ x ∈ l ∧ key x = k
  size : s.size = l.length

private theorem Refines.isSome {α : Type _} {key : α → Nat} {l : List α} {s : SpecSet α} (r : Refines key l s) (k : Nat) :
    (s.get k).isSome = true ↔ ∃ x ∈ l, key x = k := by
  rw [Option.isSome_iff_exists]
  constructor
  · rintro ⟨x, hx⟩; exact ⟨x, ((r.mem k x).1 hx).1, ((r.mem k x).1 hx).2⟩
  · rintro ⟨x, hx, hk⟩; exact ⟨x, (r.mem k x).2 ⟨hx, hk⟩⟩

private theorem filter_length {α : Type _} {key : α → Nat} {l : List α} (h : KeySorted key l) {x : α} (hx : x ∈ l) :
    (l.filter (fun y => decide (key y ≠ key x))).length = l.length - 1 := by
  obtain ⟨i, hi, rfl⟩ := List.getElem_of_mem hx
  rw [← eraseIdx_filter h (List.getElem?_eq_getElem hi), List.length_eraseIdx, if_pos hi]

/-- One call. -/
theorem C40_step_refines {α : Type _} (key : α → Nat) (cap : Nat) (l : List α) (s : SpecSet α) (r : Refines key l s)
    (op : SetOp α) :
    (setStep key cap l op).1 = (specStep key cap s op).1 ∧
      Refines key (setStep key cap l op).2 (specStep key cap s op).2 := by
  cases op with
  | contains k =>
    refine ⟨?_, r⟩
    show SetOut.bool (setContains key l k) = SetOut.bool (s.get k).isSome
    congr 1
    rw [Bool.eq_iff_iff, r.isSome]
    exact setContains_iff r.sorted k
  | remove k =>
    simp only [setStep, specStep]
    rcases setRemove_cases r.sorted k with ⟨⟨x, hx, hk⟩, e⟩ | ⟨hn, e⟩
    · have hs : (s.get k).isSome = true := (r.isSome k).2 ⟨x, hx, hk⟩
      rw [if_pos hs, e]
      refine ⟨rfl, List.Pairwise.filter _ r.sorted, ?_, ?_⟩
      · intro k' y
        dsimp only
        rw [upd_apply]
        by_cases h : k' = k
        · rw [if_pos h]; subst h
          simp
        · rw [if_neg h, r.mem]
          simp only [List.mem_filter, decide_eq_true_eq]
          constructor
          · rintro ⟨h1, h2⟩; exact ⟨⟨h1, by omega⟩, h2⟩
          · rintro ⟨⟨h1, _⟩, h2⟩; exact ⟨h1, h2⟩
      · subst hk
        show s.size - 1 = _
        rw [filter_length r.sorted hx, r.size]
    · have hs : ¬ (s.get k).isSome = true := by
        rw [r.isSome]; rintro ⟨x, hx, hk⟩; exact hn x hx hk
      rw [if_neg hs, e]
      exact ⟨rfl, r⟩
  | insert v =>
    simp only [setStep, specStep]
    rcases setInsert_cases r.sorted cap v with ⟨hp, e⟩ | ⟨a, b, hl, ha, hb, e⟩
    · rw [if_pos ((r.isSome _).2 hp), e]
      exact ⟨rfl, r⟩
    · have hn : ∀ x ∈ l, key x ≠ key v := by
        intro x hx
        rw [hl] at hx
        rcases List.mem_append.1 hx with h1 | h1
        · have := ha x h1; omega
        · have := hb x h1; omega
      have hs : ¬ (s.get (key v)).isSome = true := by
        rw [r.isSome]; rintro ⟨x, hx, hk⟩; exact hn x hx hk
      rw [if_neg hs, e, r.size]
      by_cases hc : l.length < cap
      · rw [if_pos hc, if_pos hc]
        have hsort := r.sorted
        rw [hl] at hsort
        refine ⟨rfl, KeySorted.insert hsort ha hb, ?_, ?_⟩
        · intro k y
          show upd s.get (key v) (some v) k = some y ↔ _
          rw [upd_apply]
          by_cases h : k = key v
          · rw [if_pos h]; subst h
            constructor
            · intro h1; injection h1 with h1; subst h1; simp
            · rintro ⟨h1, h2⟩
              rcases List.mem_append.1 h1 with h1 | h1
              · exact absurd h2 (hn y (by rw [hl]; simp [h1]))
              · rcases List.mem_cons.1 h1 with h1 | h1
                · rw [h1]
                · exact absurd h2 (hn y (by rw [hl]; simp [h1]))
          · rw [if_neg h, r.mem, hl]
            simp only [List.mem_append, List.mem_cons]
            constructor
            · rintro ⟨h1 | h1, h2⟩
              · exact ⟨Or.inl h1, h2⟩
              · exact ⟨Or.inr (Or.inr h1), h2⟩
            · rintro ⟨h1 | h1 | h1, h2⟩
              · exact ⟨Or.inl h1, h2⟩
              · subst h1; exact absurd h2.symm h
              · exact ⟨Or.inr h1, h2⟩
        · show l.length + 1 = _
          rw [hl]; simp only [List.length_append, List.length_cons]; omega
      · rw [if_neg hc, if_neg hc]
        exact ⟨rfl, r⟩

private theorem Refines.run {α : Type _} {key : α → Nat} {cap : Nat} (ops : List (SetOp α)) :
    ∀ {l : List α} {s : SpecSet α}, Refines key l s →
    (setRun key cap l ops).1 = (specRun key cap s ops).1 ∧ Refines key (setRun key cap l ops).2 (specRun key cap s ops).2 := by
  induction ops with
  | nil => intro l s r; exact ⟨rfl, r⟩
  | cons op ops ih =>
    intro l s r
    have h := C40_step_refines key cap l s r op
    have h2 := ih h.2
    simp only [setRun, specRun]
    exact ⟨by rw [h.1, h2.1], h2.2⟩

/-- **C40.** For every sequence of inserts, removals and membership tests on a new set: every answer is the set-theoretic one
(`insert` succeeds iff the key was absent and there is room, `remove` iff it was present, `contains` iff it is present), and the
stored list holds exactly the set's elements, strictly increasing (so without duplicates). -/
theorem C40_run_refines {α : Type _} (key : α → Nat) (cap : Nat) (ops : List (SetOp α)) :
    (setRun key cap [] ops).1 = (specRun key cap SpecSet.empty ops).1 ∧
      Refines key (setRun key cap [] ops).2 (specRun key cap SpecSet.empty ops).2 :=
  Refines.run ops ⟨List.Pairwise.nil, by simp [SpecSet.empty], rfl⟩

/-- **C40**, from any vector: `from` makes a set with exactly the keys of the vector, and from then on the above holds. -/
theorem C40_run_from_refines {α : Type _} (key : α → Nat) (cap : Nat) (v : List α) (ops : List (SetOp α)) :
    (∀ k, (∃ x ∈ setFrom key v, key x = k) ↔ ∃ x ∈ v, key x = k) ∧
    (∀ x ∈ setFrom key v, x ∈ v) ∧
    ∃ s : SpecSet α, Refines key (setFrom key v) s ∧
      (setRun key cap (setFrom key v) ops).1 = (specRun key cap s ops).1 ∧
      Refines key (setRun key cap (setFrom key v) ops).2 (specRun key cap s ops).2 := by
  refine ⟨setFrom_keys key v, ?_, ?_⟩
  · intro x hx
    have := (dedupFrom_sublist key _).subset hx
    exact (stableSort_perm _ _).mem_iff.1 this
  · have hs := setFrom_sorted key v
    have r : Refines key (setFrom key v)
        ⟨fun k => (setFrom key v).find? (fun x => decide (key x = k)), (setFrom key v).length⟩ := by
      refine ⟨hs, ?_, rfl⟩
      intro k x
      constructor
      · intro h
        exact ⟨List.mem_of_find?_eq_some h, by simpa using List.find?_some h⟩
      · rintro ⟨h1, h2⟩
        cases hf : (setFrom key v).find? (fun x => decide (key x = k)) with
        | none =>
          have := List.find?_eq_none.1 hf x h1
          simp [h2] at this
        | some y =>
          have hy := List.find?_some hf
          simp only [decide_eq_true_eq] at hy
          show List.find? _ _ = _
          rw [hf, hs.unique (List.mem_of_find?_eq_some hf) h1 (by omega)]
    exact ⟨_, r, Refines.run ops r⟩

/-- **C40**: the bound is never exceeded. -/
theorem C40_bound {α : Type _} (key : α → Nat) (cap : Nat) (ops : List (SetOp α)) :
    ∀ l : List α, KeySorted key l → l.length ≤ cap → (setRun key cap l ops).2.length ≤ cap := by
  induction ops with
  | nil => intro l _ h; exact h
  | cons op ops ih =>
    intro l hs hc
    exact ih _ (setStep_sorted hs op) (setStep_length hs hc op)

/-- The result does not depend on how the standard library searches: every search that meets the documented contract of
`binary_search` on a strictly sorted list returns the same as the one in the model. -/
theorem C40_any_search {α : Type _} (key : α → Nat) (l : List α) (hs : KeySorted key l) (k : Nat) (r : Except Nat Nat)
    (hr : SearchOk (keyCmp key k) l r) : r = bsearch (keyCmp key k) l := by
  have hb := bsearch_ok _ _ (hs.mono k)
  generalize bsearch (keyCmp key k) l = q at hb
  have eqk : ∀ {x : α}, keyCmp key k x = .eq → key x = k := by intro x h; simpa [keyCmp] using h
  have clash : ∀ (i j : Nat) x, l[i]? = some x → keyCmp key k x = .eq → SearchOk (keyCmp key k) l (.error j) → False := by
    intro i j x hx he ⟨_, h1, h2⟩
    rcases Nat.lt_or_ge i j with h | h
    · have := h1 i x hx h; rw [this] at he; cases he
    · have := h2 i x hx h; rw [this] at he; cases he
  cases r with
  | ok i =>
    obtain ⟨x, hx, hxe⟩ := hr
    cases q with
    | ok j =>
      obtain ⟨y, hy, hye⟩ := hb
      obtain ⟨hi, e1⟩ := List.getElem?_eq_some_iff.1 hx
      obtain ⟨hj, e2⟩ := List.getElem?_eq_some_iff.1 hy
      have h1 := eqk hxe
      have h2 := eqk hye
      rcases Nat.lt_trichotomy i j with h | h | h
      · have := (List.pairwise_iff_getElem.1 hs) i j hi hj h; rw [e1, e2] at this; omega
      · rw [h]
      · have := (List.pairwise_iff_getElem.1 hs) j i hj hi h; rw [e1, e2] at this; omega
    | error j => exact (clash i j x hx hxe hb).elim
  | error i =>
    cases q with
    | ok j =>
      obtain ⟨y, hy, hye⟩ := hb
      exact (clash j i y hy hye hr).elim
    | error j =>
      obtain ⟨hi, a1, a2⟩ := hr
      obtain ⟨hj, b1, b2⟩ := hb
      congr 1
      rcases Nat.lt_trichotomy i j with h | h | h
      · have hil : i < l.length := by omega
        have x1 := a2 i _ (List.getElem?_eq_getElem hil) (Nat.le_refl _)
        have x2 := b1 i _ (List.getElem?_eq_getElem hil) h
        rw [x1] at x2; cases x2
      · exact h
      · have hjl : j < l.length := by omega
        have x1 := b2 j _ (List.getElem?_eq_getElem hjl) (Nat.le_refl _)
        have x2 := a1 j _ (List.getElem?_eq_getElem hjl) h
        rw [x1] at x2; cases x2

/-- A concrete case: bonds `(owner, amount)`, room for three. -/
example : setRun (fun p : Nat × Nat => p.1) 3 [] [.insert (5, 1), .insert (2, 9), .insert (5, 7), .insert (9, 0), .insert (4, 4),
      .remove 5, .contains 5, .insert (4, 4), .remove 5] =
    ([.ins .added, .ins .added, .ins .present, .ins .added, .ins .full, .bool true, .bool false, .ins .added, .bool false],
     [(2, 9), (4, 4), (9, 0)]) := by decide +kernel

/-- `from` with duplicate owners keeps the first of each. -/
example : setFrom (fun p : Nat × Nat => p.1) [(5, 1), (2, 2), (5, 3), (1, 4)] = [(1, 4), (2, 2), (5, 1)] := by decide +kernel

end Verif.Staking
