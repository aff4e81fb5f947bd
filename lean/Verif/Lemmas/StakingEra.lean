import Verif.Model.StakingEra
import Verif.Lemmas.StakingStep

/-! # Arithmetic of shares, association lists, and the choice of collators -/

namespace Verif.Staking

/-! ### Shares -/

theorem sum_div_le (l : List Nat) (f : Nat) : (l.map (fun a => a / f)).sum ≤ l.sum / f := by
  induction l with
  | nil => simp
  | cons a l ih =>
    simp only [List.map_cons, List.sum_cons]
    exact Nat.le_trans (Nat.add_le_add_left ih _) Nat.div_add_div_le_add_div

theorem sum_muldiv_le (l : List Nat) (b d : Nat) : (l.map (fun a => a * b / d)).sum ≤ l.sum * b / d := by
  have h := sum_div_le (l.map (fun a => a * b)) d
  rw [List.map_map] at h
  have e : (l.map (fun a => a * b)).sum = l.sum * b := by
    clear h
    induction l with
    | nil => simp
    | cons a l ih => simp only [List.map_cons, List.sum_cons, ih, Nat.add_mul]
  rw [e] at h
  exact h

/-- The shares of parts of a whole are together at most one, for any reduction factor. -/
theorem sum_share_le (b : Nat) (l : List Nat) (q f : Nat) (hf : 0 < f) (hq : f ≤ q) (hl : l.sum ≤ q) :
    (l.map (fun p => p / f * b / (q / f))).sum ≤ b := by
  have h1 := sum_muldiv_le (l.map (fun p => p / f)) b (q / f)
  rw [List.map_map] at h1
  have h2 : (l.map (fun p => p / f)).sum ≤ q / f := Nat.le_trans (sum_div_le l f) (Nat.div_le_div_right hl)
  have h3 : 0 < q / f := Nat.div_pos hq hf
  refine Nat.le_trans h1 ?_
  refine Nat.le_trans (Nat.div_le_div_right (Nat.mul_le_mul_right b h2)) ?_
  rw [Nat.mul_div_cancel_left _ h3]
  exact Nat.le_refl _

/-- The factor by which `Perbill::from_rational` reduces. -/
def redFactor (b q : Nat) : Nat := max ((q + (b - 1)) / b) 1

theorem redFactor_pos (b q : Nat) : 0 < redFactor b q := by unfold redFactor; omega

theorem redFactor_le (b q : Nat) (hb : 0 < b) (hq : 0 < q) : redFactor b q ≤ q := by
  unfold redFactor
  refine Nat.max_le.2 ⟨?_, hq⟩
  rw [Nat.div_le_iff_le_mul_add_pred hb]
  have : q ≤ b * q := Nat.le_mul_of_pos_left q hb
  omega

theorem ratio_eq {p q : Nat} (h0 : 0 < q) (h : p ≤ q) :
    ratio p q = p / redFactor billion q * billion / (q / redFactor billion q) := by
  unfold ratio
  rw [if_neg (by omega)]
  rfl

theorem le_sum_of_mem {l : List Nat} {a : Nat} (h : a ∈ l) : a ≤ l.sum := by
  induction l with
  | nil => cases h
  | cons b l ih =>
    rw [List.sum_cons]
    rcases List.mem_cons.1 h with rfl | h
    · exact Nat.le_add_right _ _
    · exact Nat.le_trans (ih h) (Nat.le_add_left _ _)

theorem billion_pos : 0 < billion := by unfold billion; omega

/-- The proportions of parts of a positive whole add up to at most one. -/
theorem sum_ratio_le (l : List Nat) (q : Nat) (hq : 0 < q) (hl : l.sum ≤ q) : (l.map (fun p => ratio p q)).sum ≤ billion := by
  have e : l.map (fun p => ratio p q) = l.map (fun p => p / redFactor billion q * billion / (q / redFactor billion q)) := by
    refine List.map_congr_left ?_
    intro p hp
    exact ratio_eq hq (Nat.le_trans (le_sum_of_mem hp) hl)
  rw [e]
  exact sum_share_le billion l q _ (redFactor_pos _ _) (redFactor_le _ _ billion_pos hq) hl

theorem ratio_le (p q : Nat) : ratio p q ≤ billion := by
  by_cases h : q = 0 ∨ q < p
  · unfold ratio; rw [if_pos h]; exact Nat.le_refl _
  · have := sum_ratio_le [p] q (by omega) (by simp; omega)
    simpa using this

/-- Half a unit is the most that rounding adds. -/
theorem divNearest_two (b a : Nat) (hb : 0 < b) : 2 * (b * divNearestDown a b) ≤ 2 * a + b := by
  unfold divNearestDown
  have h1 := Nat.div_add_mod a b
  have h2 := Nat.mod_lt a hb
  by_cases h : b / 2 < a % b
  · rw [if_pos h, Nat.mul_add, Nat.mul_one]
    omega
  · rw [if_neg h, Nat.add_zero]
    omega

theorem perbillMul_two (p x : Nat) : 2 * (billion * perbillMul p x) ≤ 2 * (p * x) + billion :=
  divNearest_two billion (p * x) billion_pos

/-- The general bound on the sum of rounded shares. -/
theorem sum_round_le (b x : Nat) (l : List Nat) (hb : 0 < b) :
    2 * (b * (l.map (fun p => divNearestDown (p * x) b)).sum) ≤ 2 * (l.sum * x) + l.length * b := by
  induction l with
  | nil => simp
  | cons p l ih =>
    simp only [List.map_cons, List.sum_cons, List.length_cons, Nat.mul_add, Nat.add_mul, Nat.one_mul] at ih ⊢
    have := divNearest_two b (p * x) hb
    omega

theorem sum_perbill_le (x : Nat) (l : List Nat) :
    2 * (billion * (l.map (fun p => perbillMul p x)).sum) ≤ 2 * (l.sum * x) + l.length * billion :=
  sum_round_le billion x l billion_pos

theorem cancel_bound (b s x n m : Nat) (hb : 0 < b) (h : 2 * (b * s) ≤ 2 * (m * x) + n * b) (hm : m ≤ b) : 2 * s ≤ 2 * x + n := by
  have h1 : m * x ≤ b * x := Nat.mul_le_mul_right x hm
  have h2 : b * (2 * s) ≤ b * (2 * x + n) := by
    rw [Nat.mul_add]
    have e1 : b * (2 * s) = 2 * (b * s) := by rw [Nat.mul_left_comm]
    have e2 : b * (2 * x) = 2 * (b * x) := by rw [Nat.mul_left_comm]
    have e3 : b * n = n * b := Nat.mul_comm _ _
    rw [e1, e2, e3]
    omega
  exact Nat.le_of_mul_le_mul_left h2 hb

/-- Paying out parts of a whole in proportion exceeds the amount by at most half a unit per payment. -/
theorem shares_bound (l : List Nat) (q x : Nat) (hq : 0 < q) (hl : l.sum ≤ q) :
    2 * (l.map (fun p => perbillMul (ratio p q) x)).sum ≤ 2 * x + l.length := by
  have h1 := sum_perbill_le x (l.map (fun p => ratio p q))
  rw [List.map_map, List.length_map] at h1
  exact cancel_bound billion _ x _ _ billion_pos h1 (sum_ratio_le l q hq hl)

/-! ### Association lists -/

section al
variable {α : Type _}

theorem alHas_iff {l : List (Nat × α)} {k : Nat} : alHas l k = true ↔ k ∈ l.map Prod.fst := by
  unfold alHas
  rw [List.any_eq_true, List.mem_map]
  constructor
  · rintro ⟨p, h1, h2⟩; exact ⟨p, h1, of_decide_eq_true h2⟩
  · rintro ⟨p, h1, h2⟩; exact ⟨p, h1, decide_eq_true h2⟩

theorem alPut_keys_has {l : List (Nat × α)} {k : Nat} {v : α} (h : alHas l k = true) : (alPut l k v).map Prod.fst = l.map Prod.fst := by
  unfold alPut
  rw [if_pos h, List.map_map]
  refine List.map_congr_left ?_
  intro p _
  show (if p.1 = k then (k, v) else p).1 = p.1
  by_cases e : p.1 = k
  · rw [if_pos e]; exact e.symm
  · rw [if_neg e]

theorem alPut_keys_not {l : List (Nat × α)} {k : Nat} {v : α} (h : alHas l k ≠ true) : alPut l k v = l ++ [(k, v)] := by
  unfold alPut
  rw [if_neg h]

theorem alPut_key_mem {l : List (Nat × α)} {k : Nat} {v : α} {x : Nat} :
    x ∈ (alPut l k v).map Prod.fst ↔ x = k ∨ x ∈ l.map Prod.fst := by
  by_cases h : alHas l k = true
  · rw [alPut_keys_has h]
    constructor
    · exact Or.inr
    · rintro (rfl | e)
      · exact alHas_iff.1 h
      · exact e
  · rw [alPut_keys_not h, List.map_append, List.mem_append]
    simp [or_comm]

theorem alPut_nodup {l : List (Nat × α)} {k : Nat} {v : α} (hn : (l.map Prod.fst).Nodup) : ((alPut l k v).map Prod.fst).Nodup := by
  by_cases h : alHas l k = true
  · rw [alPut_keys_has h]; exact hn
  · rw [alPut_keys_not h, List.map_append]
    refine List.nodup_append.2 ⟨hn, by simp, ?_⟩
    intro a ha b hb
    have : b = k := by simpa using hb
    subst this
    rintro rfl
    exact h (alHas_iff.2 ha)

theorem alPut_mem {l : List (Nat × α)} {k : Nat} {v : α} {x : Nat × α} (h : x ∈ alPut l k v) : x = (k, v) ∨ x ∈ l := by
  by_cases e : alHas l k = true
  · unfold alPut at h
    rw [if_pos e] at h
    obtain ⟨p, hp, rfl⟩ := List.mem_map.1 h
    by_cases e2 : p.1 = k
    · rw [if_pos e2]; exact Or.inl rfl
    · rw [if_neg e2]; exact Or.inr hp
  · rw [alPut_keys_not e] at h
    rcases List.mem_append.1 h with h | h
    · exact Or.inr h
    · exact Or.inl (List.mem_singleton.1 h)

theorem alDel_sub {l : List (Nat × α)} {k : Nat} : (alDel l k).Sublist l := List.filter_sublist

theorem alDel_nodup {l : List (Nat × α)} {k : Nat} (hn : (l.map Prod.fst).Nodup) : ((alDel l k).map Prod.fst).Nodup :=
  hn.sublist (alDel_sub.map _)

theorem alDel_mem {l : List (Nat × α)} {k : Nat} {x : Nat × α} : x ∈ alDel l k ↔ x ∈ l ∧ x.1 ≠ k := by
  unfold alDel
  rw [List.mem_filter]
  simp

theorem alDel_key {l : List (Nat × α)} {k x : Nat} : x ∈ (alDel l k).map Prod.fst ↔ x ∈ l.map Prod.fst ∧ x ≠ k := by
  rw [List.mem_map, List.mem_map]
  constructor
  · rintro ⟨p, h, rfl⟩; exact ⟨⟨p, (alDel_mem.1 h).1, rfl⟩, (alDel_mem.1 h).2⟩
  · rintro ⟨⟨p, h, rfl⟩, h2⟩; exact ⟨p, alDel_mem.2 ⟨h, h2⟩, rfl⟩

/-- Deleting the entry of a key, when keys are unique. -/
theorem alDel_perm {l : List (Nat × α)} {k : Nat} {v : α} (hn : (l.map Prod.fst).Nodup) (h : (k, v) ∈ l) :
    l.Perm ((k, v) :: alDel l k) := by
  induction l with
  | nil => cases h
  | cons p l ih =>
    rw [List.map_cons, List.nodup_cons] at hn
    rcases List.mem_cons.1 h with rfl | h
    · have : alDel ((k, v) :: l) k = l := by
        unfold alDel
        rw [List.filter_cons_of_neg (by simp), List.filter_eq_self]
        intro x hx
        refine decide_eq_true ?_
        rintro rfl
        exact hn.1 (List.mem_map.2 ⟨x, hx, rfl⟩)
      rw [this]
    · have hne : p.1 ≠ k := by rintro rfl; exact hn.1 (List.mem_map.2 ⟨(p.1, v), h, rfl⟩)
      have : alDel (p :: l) k = p :: alDel l k := by
        unfold alDel
        rw [List.filter_cons_of_pos (by simpa using hne)]
      rw [this]
      exact ((ih hn.2 h).cons p).trans (List.Perm.swap _ _ _)

theorem alGet_mem {l : List (Nat × α)} {k : Nat} {d : α} : alGet l k d = d ∨ (k, alGet l k d) ∈ l := by
  unfold alGet
  cases h : l.find? (fun p => decide (p.1 = k)) with
  | none => exact Or.inl rfl
  | some p =>
    refine Or.inr ?_
    have h1 := List.mem_of_find?_eq_some h
    have h2 : p.1 = k := by have := List.find?_some h; simpa using this
    subst h2
    exact h1

theorem alGet_of_mem {l : List (Nat × α)} {k : Nat} {v d : α} (hn : (l.map Prod.fst).Nodup) (h : (k, v) ∈ l) : alGet l k d = v := by
  induction l with
  | nil => cases h
  | cons p l ih =>
    rw [List.map_cons, List.nodup_cons] at hn
    unfold alGet
    rcases List.mem_cons.1 h with rfl | h
    · rw [List.find?_cons_of_pos (by simp)]; rfl
    · have hne : p.1 ≠ k := by rintro rfl; exact hn.1 (List.mem_map.2 ⟨(p.1, v), h, rfl⟩)
      rw [List.find?_cons_of_neg (by simpa using hne)]
      exact ih hn.2 h

theorem alGet_not {l : List (Nat × α)} {k : Nat} {d : α} (h : alHas l k ≠ true) : alGet l k d = d := by
  rcases alGet_mem (l := l) (k := k) (d := d) with h1 | h1
  · exact h1
  · exact absurd (alHas_iff.2 (List.mem_map.2 ⟨_, h1, rfl⟩)) h

end al

/-- The sum of the second components. -/
def valSum (l : List (Nat × Nat)) : Nat := (l.map Prod.snd).sum

theorem valSum_append (a b : List (Nat × Nat)) : valSum (a ++ b) = valSum a + valSum b := by
  unfold valSum; rw [List.map_append, List.sum_append]

theorem valSum_perm {a b : List (Nat × Nat)} (h : a.Perm b) : valSum a = valSum b := (h.map _).sum_nat

/-- Adding to the value of a key adds to the sum. -/
theorem valSum_addScore {l : List (Nat × Nat)} (hn : (l.map Prod.fst).Nodup) (p : Nat × Nat) :
    valSum (addScore l p) = valSum l + p.2 := by
  unfold addScore
  by_cases h : alHas l p.1 = true
  · induction l with
    | nil => exact absurd h (by simp [alHas])
    | cons q l ih =>
      rw [List.map_cons, List.nodup_cons] at hn
      by_cases e : q.1 = p.1
      · have h2 : alHas l p.1 ≠ true := by rw [Ne, alHas_iff, ← e]; exact hn.1
        have hg : alGet (q :: l) p.1 0 = q.2 := by
          unfold alGet
          rw [List.find?_cons_of_pos (by simpa using e)]; rfl
        unfold alPut
        rw [if_pos h, hg, List.map_cons, if_pos e]
        have : l.map (fun x => if x.1 = p.1 then (p.1, q.2 + p.2) else x) = l := by
          conv => rhs; rw [← List.map_id l]
          refine List.map_congr_left ?_
          intro x hx
          rw [if_neg]
          · rfl
          · intro ex; exact h2 (alHas_iff.2 (List.mem_map.2 ⟨x, hx, ex⟩))
        rw [this]
        unfold valSum
        simp only [List.map_cons, List.sum_cons]
        omega
      · have h2 : alHas l p.1 = true := by
          rw [alHas_iff] at h ⊢
          rcases List.mem_cons.1 h with h | h
          · exact absurd h.symm e
          · exact h
        have hg : alGet (q :: l) p.1 0 = alGet l p.1 0 := by
          unfold alGet
          rw [List.find?_cons_of_neg (by simpa using e)]
        have ih' := ih hn.2 h2
        rw [hg]
        unfold alPut at ih' ⊢
        rw [if_pos h2] at ih'
        rw [if_pos h, List.map_cons, if_neg e]
        unfold valSum at ih' ⊢
        simp only [List.map_cons, List.sum_cons] at ih' ⊢
        rw [ih']
        omega
  · rw [alPut_keys_not h, alGet_not h, valSum_append]
    unfold valSum
    simp

theorem addScore_nodup {l : List (Nat × Nat)} (hn : (l.map Prod.fst).Nodup) (p : Nat × Nat) : ((addScore l p).map Prod.fst).Nodup :=
  alPut_nodup hn

theorem mergeScores_ok (old new : List (Nat × Nat)) (hn : (old.map Prod.fst).Nodup) :
    ((mergeScores old new).map Prod.fst).Nodup ∧ valSum (mergeScores old new) = valSum old + valSum new := by
  induction new generalizing old with
  | nil => exact ⟨hn, by simp [mergeScores, valSum]⟩
  | cons p new ih =>
    obtain ⟨h1, h2⟩ := ih (addScore old p) (addScore_nodup hn p)
    refine ⟨h1, ?_⟩
    show valSum (mergeScores (addScore old p) new) = _
    rw [h2, valSum_addScore hn]
    unfold valSum
    simp only [List.map_cons, List.sum_cons]
    omega

/-! ### The choice of collators -/

section top
variable (s : St) (n : Nat)

/-- The candidates in the order of selection. -/
def byStake : List Bond := (stableSort amountLe s.pool).reverse

theorem byStake_perm : (byStake s).Perm s.pool := (List.reverse_perm _).trans (stableSort_perm _ _)

theorem byStake_desc : (byStake s).Pairwise (fun a b => b.amount ≤ a.amount) := by
  unfold byStake
  rw [List.pairwise_reverse]
  have := stableSort_sorted (le := amountLe) (by intro a b c; simp only [amountLe, decide_eq_true_eq]; omega)
    (by intro a b; simp only [amountLe, decide_eq_true_eq]; omega) s.pool
  exact this.imp (by intro a b h; simpa [amountLe] using h)

/-- The chosen pool entries. -/
def chosen : List Bond := ((byStake s).take n).filter (fun x => decide (s.minCollator ≤ x.amount))

theorem topCandidates_eq : topCandidates s n = stableSort natLe ((chosen s n).map Bond.owner) := rfl

theorem chosen_sub : (chosen s n).Sublist (byStake s) := List.filter_sublist.trans (List.take_sublist _ _)

theorem chosen_mem {x : Bond} (h : x ∈ chosen s n) : x ∈ s.pool ∧ s.minCollator ≤ x.amount := by
  refine ⟨(byStake_perm s).mem_iff.1 ((chosen_sub s n).subset h), ?_⟩
  have := (List.mem_filter.1 h).2
  exact of_decide_eq_true this

theorem chosen_length : (chosen s n).length ≤ n := by
  refine Nat.le_trans (List.filter_sublist.length_le) ?_
  rw [List.length_take]
  exact Nat.min_le_left _ _

/-- A qualified pool entry that was not chosen: the set is full and everything in it has at least as much stake. -/
theorem chosen_rest {x : Bond} (hx : x ∈ s.pool) (hm : s.minCollator ≤ x.amount) (hn : x ∉ chosen s n) :
    (chosen s n).length = n ∧ ∀ y ∈ chosen s n, x.amount ≤ y.amount := by
  have hxb : x ∈ byStake s := (byStake_perm s).mem_iff.2 hx
  rw [← List.take_append_drop n (byStake s)] at hxb
  have hnt : x ∉ (byStake s).take n := fun h => hn (List.mem_filter.2 ⟨h, decide_eq_true hm⟩)
  have hxd : x ∈ (byStake s).drop n := (List.mem_append.1 hxb).resolve_left hnt
  have hp := byStake_desc s
  rw [← List.take_append_drop n (byStake s), List.pairwise_append] at hp
  have hge : ∀ y ∈ (byStake s).take n, x.amount ≤ y.amount := fun y hy => hp.2.2 y hy x hxd
  have hall : chosen s n = (byStake s).take n := by
    unfold chosen
    rw [List.filter_eq_self]
    intro y hy
    exact decide_eq_true (Nat.le_trans hm (hge y hy))
  rw [hall]
  refine ⟨?_, hge⟩
  rw [List.length_take]
  have : 0 < ((byStake s).drop n).length := List.length_pos_of_mem hxd
  rw [List.length_drop] at this
  omega

theorem topCandidates_mem {c : Nat} : c ∈ topCandidates s n ↔ ∃ x ∈ chosen s n, x.owner = c := by
  rw [topCandidates_eq, (stableSort_perm _ _).mem_iff, List.mem_map]

theorem topCandidates_length : (topCandidates s n).length ≤ n := by
  rw [topCandidates_eq, (stableSort_perm _ _).length_eq, List.length_map]
  exact chosen_length s n

theorem topCandidates_length_pool : (topCandidates s n).length ≤ s.pool.length := by
  rw [topCandidates_eq, (stableSort_perm _ _).length_eq, List.length_map]
  exact Nat.le_trans (chosen_sub s n).length_le (Nat.le_of_eq (byStake_perm s).length_eq)

theorem topCandidates_sorted (hs : KeySorted Bond.owner s.pool) : (topCandidates s n).Pairwise (· < ·) := by
  have h1 : (topCandidates s n).Pairwise (fun a b => a ≤ b) := by
    have := stableSort_sorted (le := natLe) (by intro a b c; simp only [natLe, decide_eq_true_eq]; omega)
      (by intro a b; simp only [natLe, decide_eq_true_eq]; omega) ((chosen s n).map Bond.owner)
    exact this.imp (by intro a b h; simpa [natLe] using h)
  have h2 : (topCandidates s n).Nodup := by
    rw [topCandidates_eq, (stableSort_perm _ _).nodup_iff]
    refine List.Nodup.sublist ((chosen_sub s n).map _) ?_
    rw [((byStake_perm s).map _).nodup_iff]
    unfold KeySorted at hs
    have : (s.pool.map Bond.owner).Pairwise (· < ·) := by rw [List.pairwise_map]; exact hs
    exact this.imp (fun h => Nat.ne_of_lt h)
  have h3 := List.Pairwise.and h1 h2
  exact h3.imp (fun ⟨a, b⟩ => Nat.lt_of_le_of_ne a b)

end top

end Verif.Staking
