import Verif.Lemmas.EthBridgeEvents
import Verif.Lemmas.Avn

namespace Verif.EthBridge

open Verif.Events

/-! ### Sorting of block counts and the selection loop -/

theorem insertSorted_perm (x : Nat × Nat) (l : List (Nat × Nat)) : (insertSorted x l).Perm (x :: l) := by
  induction l with
  | nil => simp [insertSorted]
  | cons y ys ih =>
    unfold insertSorted
    split
    · exact List.Perm.refl _
    · exact (ih.cons y).trans (List.Perm.swap x y ys)

theorem sortPairs_perm (l : List (Nat × Nat)) : (sortPairs l).Perm l := by
  induction l with
  | nil => simp [sortPairs]
  | cons x xs ih => exact (insertSorted_perm x _).trans (ih.cons x)

theorem insertSorted_sorted (x : Nat × Nat) (l : List (Nat × Nat)) (h : l.Pairwise (fun a b => a.1 ≤ b.1)) :
    (insertSorted x l).Pairwise (fun a b => a.1 ≤ b.1) := by
  induction l with
  | nil => simp [insertSorted]
  | cons y ys ih =>
    have hy := List.pairwise_cons.1 h
    unfold insertSorted
    split
    · rename_i hc
      have hxy : x.1 ≤ y.1 := by omega
      refine List.pairwise_cons.2 ⟨?_, h⟩
      intro z hz
      rcases List.mem_cons.1 hz with rfl | hz
      · exact hxy
      · exact Nat.le_trans hxy (hy.1 z hz)
    · rename_i hc
      refine List.pairwise_cons.2 ⟨?_, ih hy.2⟩
      intro z hz
      rcases List.mem_cons.1 ((insertSorted_perm x ys).mem_iff.1 hz) with rfl | hz
      · omega
      · exact hy.1 z hz

theorem sortPairs_sorted (l : List (Nat × Nat)) : (sortPairs l).Pairwise (fun a b => a.1 ≤ b.1) := by
  induction l with
  | nil => simp [sortPairs]
  | cons x xs ih => exact insertSorted_sorted x _ ih

theorem selectBlock_spec (q : Nat) (l : List (Nat × Nat)) : ∀ (r b : Nat), selectBlock q r l = some b →
    ∃ pre c post, l = pre ++ (b, c) :: post ∧ r - ((pre.map Prod.snd).sum + c) < q ∧
      (pre = [] ∨ q ≤ r - (pre.map Prod.snd).sum) := by
  induction l with
  | nil => intro r b h; simp [selectBlock] at h
  | cons x xs ih =>
    obtain ⟨b0, c0⟩ := x
    intro r b h
    unfold selectBlock at h
    by_cases hq : r - c0 < q
    · simp only [hq, if_true, Option.some.injEq] at h
      subst h
      exact ⟨[], c0, xs, rfl, by simpa using hq, .inl rfl⟩
    · simp only [hq, if_false] at h
      obtain ⟨pre, c, post, rfl, h1, h2⟩ := ih _ _ h
      refine ⟨(b0, c0) :: pre, c, post, rfl, ?_, .inr ?_⟩
      · simp only [List.map_cons, List.sum_cons]; omega
      · simp only [List.map_cons, List.sum_cons]
        rcases h2 with rfl | h2
        · simp; omega
        · omega

theorem selectBlock_some (q : Nat) (hq : 0 < q) (l : List (Nat × Nat)) : ∀ r, r ≤ (l.map Prod.snd).sum → l ≠ [] →
    ∃ b, selectBlock q r l = some b := by
  induction l with
  | nil => intro r _ h; simp at h
  | cons x xs ih =>
    obtain ⟨b0, c0⟩ := x
    intro r hr _
    unfold selectBlock
    by_cases h : r - c0 < q
    · simp [h]
    · simp only [h, if_false]
      simp only [List.map_cons, List.sum_cons] at hr
      refine ih _ (by omega) ?_
      rintro rfl
      simp at hr; omega

/-- Counting votes in the map by a predicate on the key. -/
theorem countP_flat (m : List (Nat × List Nat)) (P : Nat → Bool) :
    (flat m).countP (fun x => P x.2) =
      (((m.map (fun e => (e.1, e.2.length))).filter (fun e => P e.1)).map Prod.snd).sum := by
  induction m with
  | nil => simp [flat]
  | cons e m ih =>
    have : flat (e :: m) = e.2.map (fun v => (v, e.1)) ++ flat m := by simp [flat]
    rw [this, List.countP_append, ih]
    cases hP : P e.1
    · simp [List.countP_map, hP, Function.comp_def]
    · simp [List.countP_map, hP, Function.comp_def]

theorem length_flat (m : List (Nat × List Nat)) :
    (flat m).length = ((m.map (fun e => (e.1, e.2.length))).map Prod.snd).sum := by
  induction m with
  | nil => simp [flat]
  | cons e m ih =>
    have : flat (e :: m) = e.2.map (fun v => (v, e.1)) ++ flat m := by simp [flat]
    simp [this, ih]

theorem sum_filter_le (P : Nat × Nat → Bool) (l : List (Nat × Nat)) :
    ((l.filter P).map Prod.snd).sum ≤ (l.map Prod.snd).sum := by
  induction l with
  | nil => simp
  | cons x xs ih => cases h : P x <;> simp [h] <;> omega

theorem sum_filter_all (P : Nat × Nat → Bool) (l : List (Nat × Nat)) (h : ∀ x ∈ l, P x = true) :
    (l.filter P) = l := List.filter_eq_self.2 h

/-- The arithmetic heart of the block selection. -/
theorem select_counts (n : Nat) (hn : 0 < n) (counts : List (Nat × Nat)) (b : Nat)
    (hpos : ∀ e ∈ counts, 0 < e.2)
    (hT : Avn.requiredForSupermajority n ≤ (counts.map Prod.snd).sum)
    (h : selectBlock (Avn.requiredFor n) (Avn.requiredForSupermajority n) (sortPairs counts) = some b) :
    (∃ c, (b, c) ∈ counts) ∧
    Avn.requiredFor n ≤ ((counts.filter (fun e => decide (b ≤ e.1))).map Prod.snd).sum ∧
    Avn.requiredForSupermajority n - Avn.requiredFor n <
      ((counts.filter (fun e => decide (e.1 ≤ b))).map Prod.snd).sum := by
  obtain ⟨pre, c, post, hl, h1, h2⟩ := selectBlock_spec _ _ _ _ h
  have hperm := sortPairs_perm counts
  have hsorted := sortPairs_sorted counts
  rw [hl] at hperm hsorted
  have hmem : (b, c) ∈ counts := hperm.mem_iff.1 (by simp)
  have hc : 0 < c := hpos _ hmem
  have hT' : (counts.map Prod.snd).sum = (pre.map Prod.snd).sum + (c + (post.map Prod.snd).sum) := by
    rw [← (hperm.map Prod.snd).sum_nat]; simp
  have hge : c + (post.map Prod.snd).sum ≤ ((counts.filter (fun e => decide (b ≤ e.1))).map Prod.snd).sum := by
    rw [← ((hperm.filter _).map Prod.snd).sum_nat]
    have hp : ∀ x ∈ post, decide (b ≤ x.1) = true := by
      intro x hx
      have := (List.pairwise_append.1 hsorted).2.1
      have := (List.pairwise_cons.1 this).1 x hx
      simpa using this
    simp [List.filter_append, sum_filter_all _ post hp]
  have hle : (pre.map Prod.snd).sum + c ≤ ((counts.filter (fun e => decide (e.1 ≤ b))).map Prod.snd).sum := by
    rw [← ((hperm.filter _).map Prod.snd).sum_nat]
    have hp : ∀ x ∈ pre, decide (x.1 ≤ b) = true := by
      intro x hx
      have := (List.pairwise_append.1 hsorted).2.2 x hx (b, c) (by simp)
      simpa using this
    simp [List.filter_append, sum_filter_all _ pre hp]
  refine ⟨⟨c, hmem⟩, ?_, ?_⟩
  · unfold Avn.requiredFor Avn.requiredForSupermajority at *
    rcases h2 with rfl | h2
    · simp at hT'; omega
    · omega
  · unfold Avn.requiredFor Avn.requiredForSupermajority at *
    omega

/-! ### Partition construction -/

theorem insertD_perm (x : Discovered) (l : List Discovered) : (insertD x l).Perm (x :: l) := by
  induction l with
  | nil => simp [insertD]
  | cons y ys ih =>
    unfold insertD
    split
    · exact List.Perm.refl _
    · exact (ih.cons y).trans (List.Perm.swap x y ys)

theorem sortD_perm (l : List Discovered) : (sortD l).Perm l := by
  induction l with
  | nil => simp [sortD]
  | cons x xs ih => exact (insertD_perm x _).trans (ih.cons x)

theorem leD_total (a b : Discovered) : leD a b = false → leD b a = true := by
  unfold leD; grind
theorem leD_trans (a b c : Discovered) : leD a b = true → leD b c = true → leD a c = true := by
  unfold leD; grind

theorem insertD_sorted (x : Discovered) (l : List Discovered) (h : l.Pairwise (fun a b => leD a b = true)) :
    (insertD x l).Pairwise (fun a b => leD a b = true) := by
  induction l with
  | nil => simp [insertD]
  | cons y ys ih =>
    have hy := List.pairwise_cons.1 h
    unfold insertD
    by_cases hc : leD x y = true
    · simp only [hc, if_true]
      refine List.pairwise_cons.2 ⟨?_, h⟩
      intro z hz
      rcases List.mem_cons.1 hz with rfl | hz
      · exact hc
      · exact leD_trans _ _ _ hc (hy.1 z hz)
    · simp only [hc, if_false, Bool.false_eq_true]
      refine List.pairwise_cons.2 ⟨?_, ih hy.2⟩
      intro z hz
      rcases List.mem_cons.1 ((insertD_perm x ys).mem_iff.1 hz) with rfl | hz
      · exact leD_total _ _ (by simpa using hc)
      · exact hy.1 z hz

theorem sortD_sorted (l : List Discovered) : (sortD l).Pairwise (fun a b => leD a b = true) := by
  induction l with
  | nil => simp [sortD]
  | cons x xs ih => exact insertD_sorted x _ ih

theorem chunksAux_flatten (n : Nat) (hn : 0 < n) : ∀ (f : Nat) (l : List Discovered), l.length ≤ f →
    (chunksAux n f l).flatten = l := by
  intro f
  induction f with
  | zero => intro l h; simp at h; simp [chunksAux, h]
  | succ f ih =>
    intro l h
    cases l with
    | nil => simp [chunksAux]
    | cons x xs =>
      simp only [chunksAux, List.flatten_cons]
      rw [ih _ (by simp at h ⊢; omega), List.take_append_drop]

theorem chunks_flatten (n : Nat) (hn : 0 < n) (l : List Discovered) : (chunks n l).flatten = l :=
  chunksAux_flatten n hn _ l (Nat.le_refl _)

theorem chunksAux_len (n : Nat) : ∀ (f : Nat) (l : List Discovered), ∀ c ∈ chunksAux n f l, c.length ≤ n := by
  intro f
  induction f with
  | zero => simp [chunksAux]
  | succ f ih =>
    intro l c hc
    cases l with
    | nil => simp [chunksAux] at hc
    | cons x xs =>
      simp only [chunksAux, List.mem_cons] at hc
      rcases hc with rfl | hc
      · simp only [List.length_take]; omega
      · exact ih _ c hc

theorem dedupAdj_sublist (l : List Discovered) : (dedupAdj l).Sublist l := by
  fun_induction dedupAdj l with
  | case1 => exact List.Sublist.refl _
  | case2 => exact List.Sublist.refl _
  | case3 x ys ih => exact ih.trans (List.sublist_cons_self _ _)
  | case4 x y ys h ih => exact ih.cons_cons x

theorem dedupAdj_mem (l : List Discovered) (d : Discovered) : d ∈ dedupAdj l ↔ d ∈ l := by
  fun_induction dedupAdj l with
  | case1 => simp
  | case2 => simp
  | case3 x ys ih => simp [ih]
  | case4 x y ys h ih => simp [ih]

theorem dedupAdj_nodup (l : List Discovered) (h : l.Nodup) : dedupAdj l = l := by
  fun_induction dedupAdj l with
  | case1 => rfl
  | case2 => rfl
  | case3 x ys ih => simp at h
  | case4 x y ys hne ih => rw [ih (List.nodup_cons.1 h).2]

/-- No two neighbours of the result are equal. -/
theorem dedupAdj_head (x : Discovered) (l : List Discovered) : ∃ t, dedupAdj (x :: l) = x :: t := by
  induction l generalizing x with
  | nil => exact ⟨[], rfl⟩
  | cons y ys ih =>
    unfold dedupAdj
    by_cases h : x = y
    · subst h; simpa using ih x
    · simp [h]

theorem dedupAdj_chain (l : List Discovered) : (dedupAdj l).IsChain (· ≠ ·) := by
  fun_induction dedupAdj l with
  | case1 => simp
  | case2 => simp
  | case3 x ys ih => exact ih
  | case4 x y ys h ih =>
    obtain ⟨t, ht⟩ := dedupAdj_head y ys
    rw [ht] at ih ⊢
    exact List.IsChain.cons_cons h ih

theorem number_length (range : Range) (n : Nat) (cs : List (List Discovered)) (i : Nat) :
    (number range n i cs).length = cs.length := by
  induction cs generalizing i with
  | nil => simp [number]
  | cons c cs ih => simp [number, ih]

theorem number_get (range : Range) (n : Nat) (cs : List (List Discovered)) (i j : Nat) :
    (number range n i cs)[j]? = (cs[j]?).map (fun c =>
      { range := range, number := (i + j) % 65536, isLast := n == i + j + 1, events := dedupAdj c }) := by
  induction cs generalizing i j with
  | nil => simp [number]
  | cons c cs ih =>
    cases j with
    | zero => simp [number]
    | succ j =>
      simp only [number, List.getElem?_cons_succ, ih]
      have : i + 1 + j = i + (j + 1) := by omega
      rw [this]

theorem number_events (range : Range) (n : Nat) (cs : List (List Discovered)) (i : Nat) :
    (number range n i cs).flatMap Partition.events = cs.flatMap dedupAdj := by
  induction cs generalizing i with
  | nil => simp [number]
  | cons c cs ih => simp [number, ih]

theorem flatMap_dedup_sublist (cs : List (List Discovered)) : (cs.flatMap dedupAdj).Sublist cs.flatten := by
  induction cs with
  | nil => simp
  | cons c cs ih => simp only [List.flatMap_cons, List.flatten_cons]; exact (dedupAdj_sublist c).append ih

theorem flatMap_dedup_nodup (cs : List (List Discovered)) (h : cs.flatten.Nodup) : cs.flatMap dedupAdj = cs.flatten := by
  induction cs with
  | nil => simp
  | cons c cs ih =>
    simp only [List.flatten_cons, List.nodup_append] at h
    simp only [List.flatMap_cons, List.flatten_cons, ih h.2.1, dedupAdj_nodup c h.1]

/-- The partitions' events, concatenated. -/
theorem createPartitions_events (range : Range) (events : List Discovered) :
    (createPartitions range events).flatMap Partition.events = (chunks 32 (sortD events)).flatMap dedupAdj := by
  simp only [createPartitions]
  split
  · rename_i h
    have : (number range (chunks 32 (sortD events)).length 0 (chunks 32 (sortD events))).length = 0 := by simp [h]
    rw [number_length] at this
    have : chunks 32 (sortD events) = [] := List.length_eq_zero_iff.1 this
    simp [this]
  · exact number_events _ _ _ _

end Verif.EthBridge
