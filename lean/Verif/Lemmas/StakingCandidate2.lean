import Verif.Lemmas.StakingCandidate

/-! # The invariant of one candidate and its operations -/

namespace Verif.Staking

/-- The constants are sensible: both lists can hold something and fit the storage vectors. -/
structure Cfg.Ok (cfg : Cfg) : Prop where
  top_pos : 0 < cfg.maxTop
  bottom_pos : 0 < cfg.maxBottom
  top_le : cfg.maxTop ≤ vecCap
  bottom_le : cfg.maxBottom ≤ vecCap

/-- Top and bottom lists: sorted, within the caps, bottom used only when top is full, bottom never above top. -/
structure Shape (cfg : Cfg) (top bottom : List Bond) : Prop where
  topDesc : Desc top
  botDesc : Desc bottom
  topLen : top.length ≤ cfg.maxTop
  botLen : bottom.length ≤ cfg.maxBottom
  full : bottom ≠ [] → top.length = cfg.maxTop
  cross : ∀ x ∈ bottom, ∀ y ∈ top, x.amount ≤ y.amount

/-- The pool entry of the candidate. -/
structure PoolOk (cfg : Cfg) (c : Nat) (active : Bool) (counted : Nat) (pool : List Bond) : Prop where
  sorted : KeySorted Bond.owner pool
  len : pool.length ≤ cfg.maxPool
  yes : active = true → (⟨c, counted⟩ : Bond) ∈ pool
  no : active = false → ∀ x ∈ pool, x.owner ≠ c

/-- Everything recorded about the candidate except the pool agrees with the lists. -/
structure CacheOk (cfg : Cfg) (s : Cand) : Prop where
  topTotal : s.top.total = sumAmt s.top.list
  botTotal : s.bottom.total = sumAmt s.bottom.list + s.leak
  counted : s.info.totalCounted = s.info.bond + sumAmt s.top.list
  count : s.info.count = s.top.list.length + s.bottom.list.length
  lowestTop : s.info.lowestTop = lowestAmount s.top.list
  highestBottom : s.info.highestBottom = highestAmount s.bottom.list
  lowestBottom : s.info.lowestBottom = lowestAmount s.bottom.list
  topCap : s.info.topCap = capacity cfg.maxTop s.top.list
  bottomCap : s.info.bottomCap = capacity cfg.maxBottom s.bottom.list

/-- All nominations of the candidate. -/
def Cand.entries (s : Cand) : List Bond := s.top.list ++ s.bottom.list

/-- The invariant of a candidate. -/
structure CInv (cfg : Cfg) (c : Nat) (s : Cand) : Prop where
  shape : Shape cfg s.top.list s.bottom.list
  uniq : Uniq s.entries
  cache : CacheOk cfg s
  pool : PoolOk cfg c s.info.isActive s.info.totalCounted s.pool

/-- What no nomination operation changes. -/
structure Frame (c : Nat) (s s' : Cand) : Prop where
  bond : s'.info.bond = s.info.bond
  request : s'.info.request = s.info.request
  status : s'.info.status = s.info.status
  pool : ∀ x : Bond, x.owner ≠ c → (x ∈ s'.pool ↔ x ∈ s.pool)

theorem Frame.refl (c : Nat) (s : Cand) : Frame c s s := ⟨rfl, rfl, rfl, fun _ _ => Iff.rfl⟩

theorem capacity_full {m : Nat} {l : List Bond} : capacity m l = .full ↔ m ≤ l.length := by
  unfold capacity
  by_cases h : m ≤ l.length
  · rw [if_pos h]; simp [h]
  · rw [if_neg h]
    by_cases h2 : l = []
    · rw [if_pos h2]; simp [h]
    · rw [if_neg h2]; simp [h]

theorem capacity_empty {m : Nat} (hm : 0 < m) {l : List Bond} : capacity m l = .empty ↔ l = [] := by
  unfold capacity
  by_cases h : m ≤ l.length
  · rw [if_pos h]
    constructor
    · intro e; cases e
    · intro e; subst e; simp at h; omega
  · rw [if_neg h]
    by_cases h2 : l = []
    · rw [if_pos h2]; simp [h2]
    · rw [if_neg h2]; simp [h2]

/-! ### Pool -/

theorem resetTop_pool {cfg : Cfg} {c : Nat} {s : Cand} (h : PoolOk cfg c s.info.isActive s.info.totalCounted s.pool) (top : Noms) :
    PoolOk cfg c s.info.isActive (s.info.bond + top.total) (resetTop cfg c s top).pool ∧
    ∀ x : Bond, x.owner ≠ c → (x ∈ (resetTop cfg c s top).pool ↔ x ∈ s.pool) := by
  unfold resetTop
  dsimp only
  by_cases hc : s.info.totalCounted ≠ s.info.bond + top.total ∧ s.info.isActive = true
  · rw [if_pos hc]
    obtain ⟨a1, a2, a3⟩ := updateActive_spec (cfg := cfg) h.sorted h.len c (s.info.bond + top.total)
      ⟨_, h.yes hc.2, rfl⟩
    refine ⟨⟨a1, by rw [a2]; exact h.len, fun _ => (a3 _).2 (Or.inl rfl), fun hf => by rw [hc.2] at hf; cases hf⟩, ?_⟩
    intro x hx
    rw [a3]
    constructor
    · rintro (rfl | ⟨h1, _⟩)
      · exact absurd rfl hx
      · exact h1
    · intro h1; exact Or.inr ⟨h1, hx⟩
  · rw [if_neg hc]
    refine ⟨⟨h.sorted, h.len, ?_, h.no⟩, fun _ _ => Iff.rfl⟩
    intro ha
    have : s.info.totalCounted = s.info.bond + top.total := Decidable.of_not_not (fun e => hc ⟨e, ha⟩)
    rw [← this]; exact h.yes ha

/-- A candidate seen as the record it is. -/
theorem Cand.eta (s : Cand) : s = ⟨s.info, s.top, s.bottom, s.pool, s.kicked, s.leak⟩ := rfl

/-! ### Consequences of the invariant -/

section
variable {cfg : Cfg} {c : Nat} {s : Cand}

theorem CInv.bottom_le_lowestTop (hcfg : cfg.Ok) (h : CInv cfg c s) : ∀ x ∈ s.bottom.list, x.amount ≤ s.info.lowestTop := by
  intro x hx
  rw [h.cache.lowestTop]
  unfold lowestAmount
  have hne : s.bottom.list ≠ [] := by intro e; rw [e] at hx; cases hx
  have hlen := h.shape.full hne
  cases hl : s.top.list.getLast? with
  | none =>
    rw [List.getLast?_eq_none_iff] at hl
    rw [hl] at hlen
    have := hcfg.top_pos
    simp at hlen; omega
  | some t =>
    obtain ⟨p, e⟩ := List.getLast?_eq_some_iff.1 hl
    simpa using h.shape.cross x hx t (by rw [e]; simp)

theorem CInv.highestBottom_le (hcfg : cfg.Ok) (h : CInv cfg c s) : s.info.highestBottom ≤ s.info.lowestTop := by
  rw [h.cache.highestBottom]
  unfold highestAmount
  cases hb : s.bottom.list.head? with
  | none => simp
  | some x =>
    have hx : x ∈ s.bottom.list := List.mem_of_mem_head? (by rw [hb]; rfl)
    simpa using h.bottom_le_lowestTop hcfg x hx

theorem CInv.uniqTop (h : CInv cfg c s) : Uniq s.top.list := by
  have := h.uniq
  unfold Uniq Cand.entries at this
  rw [List.map_append] at this
  exact (List.nodup_append.1 this).1

theorem CInv.uniqBottom (h : CInv cfg c s) : Uniq s.bottom.list := by
  have := h.uniq
  unfold Uniq Cand.entries at this
  rw [List.map_append] at this
  exact (List.nodup_append.1 this).2.1

theorem CInv.disjoint (h : CInv cfg c s) {x y : Bond} (hx : x ∈ s.top.list) (hy : y ∈ s.bottom.list) : x.owner ≠ y.owner := by
  have := h.uniq
  unfold Uniq Cand.entries at this
  rw [List.map_append] at this
  intro e
  exact (List.nodup_append.1 this).2.2 _ (List.mem_map_of_mem hx) _ (List.mem_map_of_mem hy) e

end

/-! ### Adding -/

/-- What `addBottom` does, field by field. -/
theorem addBottom_eq {cfg : Cfg} (hcfg : cfg.Ok) {s : Cand} (hd : Desc s.bottom.list) (hl : s.bottom.list.length ≤ cfg.maxBottom)
    (ht : s.bottom.total = sumAmt s.bottom.list + s.leak) (bumped : Bool) (b : Bond) :
    ∃ (k : Option Bond) (B' : List Bond),
      k = (if s.bottom.list.length = cfg.maxBottom then s.bottom.list.getLast? else none) ∧
      (k.isSome ↔ s.bottom.list.length = cfg.maxBottom) ∧
      (k.toList ++ B').Perm (b :: s.bottom.list) ∧ (∀ x ∈ B', x = b ∨ x ∈ s.bottom.list) ∧
      Desc B' ∧ B' ≠ [] ∧ B'.length ≤ cfg.maxBottom ∧
      addBottom cfg bumped s b =
        ⟨{ s.info with count := s.info.count + (if k.isNone && !bumped then 1 else 0), lowestBottom := lowestAmount B',
                       highestBottom := highestAmount B', bottomCap := capacity cfg.maxBottom B' },
         s.top, ⟨B', sumAmt B' + s.leak⟩, s.pool, s.kicked ++ k.toList, s.leak⟩ := by
  by_cases hf : s.bottom.list.length = cfg.maxBottom
  · have hpos := hcfg.bottom_pos
    cases hk : s.bottom.list.getLast? with
    | none =>
      rw [List.getLast?_eq_none_iff] at hk
      rw [hk] at hf; simp at hf; omega
    | some k =>
      have e := eq_dropLast_append hk
      have hd0 : Desc (popLast s.bottom).list := hd.sublist (List.dropLast_sublist _)
      have hlen : (popLast s.bottom).list.length + 1 = cfg.maxBottom := by
        rw [← hf]; show s.bottom.list.dropLast.length + 1 = _
        rw [List.length_dropLast]; omega
      have hv : (popLast s.bottom).list.length < vecCap := by have := hcfg.bottom_le; omega
      have hperm := insertSorted_perm hd0 hv b
      have hlow : lowestAmount s.bottom.list = k.amount := by unfold lowestAmount; rw [hk]; rfl
      have hsum : sumAmt s.bottom.list = sumAmt (popLast s.bottom).list + k.amount := by
        conv => lhs; rw [e]
        rw [sumAmt_append]; rfl
      refine ⟨some k, (insertSorted (popLast s.bottom) b).list, ?_, ?_, ?_, ?_, insertSorted_desc hd0 hv b, ?_, ?_, ?_⟩
      · rw [if_pos hf]
      · simp [hf]
      · show (k :: _).Perm _
        refine (hperm.cons k).trans ?_
        refine (List.Perm.swap b k _).trans (List.Perm.cons b ?_)
        conv => rhs; rw [e]
        exact (List.perm_append_singleton k _).symm
      · intro x hx
        rcases List.mem_cons.1 (hperm.mem_iff.1 hx) with h | h
        · exact Or.inl h
        · exact Or.inr (List.dropLast_subset _ h)
      · intro h0; have := hperm.length_eq; rw [h0] at this; simp at this
      · rw [insertSorted_length hd0 hv b]; omega
      · unfold addBottom addBottomTail resetBottom putBottom
        rw [if_pos hf, hk]
        have ht2 : (insertSorted (popLast s.bottom) b).total = sumAmt (insertSorted (popLast s.bottom) b).list + s.leak := by
          rw [sumAmt_perm hperm, sumAmt_cons, insertSorted_total]
          show s.bottom.total - lowestAmount s.bottom.list + _ = _
          rw [ht, hlow, hsum]; omega
        simp only [Bool.false_eq_true, if_false, Option.isNone_some, Bool.false_and, Nat.add_zero, ← ht2]
  · have hv : s.bottom.list.length < vecCap := by have := hcfg.bottom_le; omega
    have hperm := insertSorted_perm hd hv b
    refine ⟨none, (insertSorted s.bottom b).list, ?_, ?_, ?_, ?_, insertSorted_desc hd hv b, ?_, ?_, ?_⟩
    · rw [if_neg hf]
    · simp [hf]
    · simpa using hperm
    · intro x hx
      exact List.mem_cons.1 (hperm.mem_iff.1 hx)
    · intro h0; have := hperm.length_eq; rw [h0] at this; simp at this
    · rw [insertSorted_length hd hv b]; omega
    · unfold addBottom addBottomTail resetBottom putBottom incCount
      rw [if_neg hf]
      have ht2 : (insertSorted s.bottom b).total = sumAmt (insertSorted s.bottom b).list + s.leak := by
        rw [sumAmt_perm hperm, sumAmt_cons, insertSorted_total, ht]; omega
      cases bumped <;> simp [← ht2]

theorem Option.isSome_of_toList {α : Type _} (k : Option α) : k.toList.length = if k.isSome then 1 else 0 := by
  cases k <;> rfl

/-- `add_nomination` keeps the invariant; the nominations afterwards are the old ones and the new one, less the kicked one. -/
theorem addNomination_ok {cfg : Cfg} (hcfg : cfg.Ok) {c : Nat} {s s' : Cand} (h : CInv cfg c s) {b : Bond}
    (hb : ∀ x ∈ s.entries, x.owner ≠ b.owner) {inTop : Bool} {less : Option Nat}
    (ho : addNomination cfg c s b = .ok (s', inTop, less)) :
    CInv cfg c s' ∧ Frame c s s' ∧ s'.leak = s.leak ∧
    ∃ k : Option Bond, s'.kicked = s.kicked ++ k.toList ∧ less = k.map Bond.amount ∧ (∀ x ∈ k, x ∈ s.bottom.list) ∧
      (k.toList ++ s'.entries).Perm (b :: s.entries) := by
  have hub : Uniq (b :: s.entries) := by
    refine List.nodup_cons.2 ⟨?_, h.uniq⟩
    intro hm
    obtain ⟨x, hx, e⟩ := List.mem_map.1 hm
    exact hb x hx e
  have uniq_of : ∀ {k : Option Bond} {l : List Bond}, (k.toList ++ l).Perm (b :: s.entries) → Uniq l := by
    intro k l hp
    have := hub.perm hp
    unfold Uniq at this
    rw [List.map_append] at this
    exact (List.nodup_append.1 this).2.1
  unfold addNomination at ho
  by_cases hcap : s.info.topCap = .full
  · rw [if_pos hcap] at ho
    have hfull : s.top.list.length = cfg.maxTop := by
      rw [h.cache.topCap, capacity_full] at hcap
      have := h.shape.topLen; omega
    have hne : s.top.list ≠ [] := by
      intro e; rw [e] at hfull; have := hcfg.top_pos; simp at hfull; omega
    have hbc : s.info.bottomCap = .full ↔ s.bottom.list.length = cfg.maxBottom := by
      rw [h.cache.bottomCap, capacity_full]
      have := h.shape.botLen
      omega
    by_cases hlt : s.info.lowestTop < b.amount
    · -- into the full top
      rw [if_pos hlt] at ho
      injection ho with ho
      obtain ⟨e1, ho⟩ := Prod.mk.inj ho
      obtain ⟨_, e2⟩ := Prod.mk.inj ho
      unfold addTop at e1 e2
      rw [if_pos hfull] at e1 e2
      cases ht : s.top.list.getLast? with
      | none => rw [List.getLast?_eq_none_iff] at ht; exact absurd ht hne
      | some t =>
        rw [ht] at e1 e2
        dsimp only at e1 e2
        have et := eq_dropLast_append ht
        have htm : t ∈ s.top.list := by rw [et]; simp
        have hlow : s.info.lowestTop = t.amount := by rw [h.cache.lowestTop]; unfold lowestAmount; rw [ht]; rfl
        obtain ⟨k, B', hk, hks, hperm, hmem, hdesc, hBne, hlen, heq⟩ :=
          addBottom_eq hcfg h.shape.botDesc h.shape.botLen h.cache.botTotal true t
        rw [heq] at e1
        have hless : (if s.info.bottomCap = .full then some s.info.lowestBottom else none) = k.map Bond.amount := by
          by_cases hbf : s.bottom.list.length = cfg.maxBottom
          · rw [if_pos (hbc.2 hbf), hk, if_pos hbf, h.cache.lowestBottom]
            unfold lowestAmount
            cases hg : s.bottom.list.getLast? with
            | none =>
              rw [List.getLast?_eq_none_iff] at hg; rw [hg] at hbf
              have := hcfg.bottom_pos; simp at hbf; omega
            | some z => rfl
          · rw [if_neg (fun e => hbf (hbc.1 e)), hk, if_neg hbf]; rfl
        rw [hless] at e1 e2
        have hd0 : Desc (popLast s.top).list := h.shape.topDesc.sublist (List.dropLast_sublist _)
        have hl0 : (popLast s.top).list.length + 1 = cfg.maxTop := by
          rw [← hfull]; show s.top.list.dropLast.length + 1 = _
          rw [List.length_dropLast]
          have : 0 < s.top.list.length := List.length_pos_iff.2 hne
          omega
        have hv : (popLast s.top).list.length < vecCap := by have := hcfg.top_le; omega
        have hpt := insertSorted_perm hd0 hv b
        have hlt' : (insertSorted (popLast s.top) b).list.length = cfg.maxTop := by rw [insertSorted_length hd0 hv]; exact hl0
        have hsum : sumAmt s.top.list = sumAmt (popLast s.top).list + t.amount := by
          conv => lhs; rw [et]
          rw [sumAmt_append]; rfl
        have htot : (insertSorted (popLast s.top) b).total = sumAmt (insertSorted (popLast s.top) b).list := by
          rw [sumAmt_perm hpt, sumAmt_cons, insertSorted_total]
          show s.top.total - lowestAmount s.top.list + _ = _
          rw [h.cache.topTotal, hsum, ← h.cache.lowestTop, hlow]; omega
        generalize hT' : insertSorted (popLast s.top) b = T' at *
        have hpool := resetTop_pool (s := s) h.pool T'
        have hent : (k.toList ++ (T'.list ++ B')).Perm (b :: s.entries) := by
          have h1 : (k.toList ++ (T'.list ++ B')).Perm (T'.list ++ (k.toList ++ B')) := by
            rw [← List.append_assoc, ← List.append_assoc]
            exact List.Perm.append_right _ List.perm_append_comm
          refine h1.trans ((hpt.append hperm).trans ?_)
          show (b :: (popLast s.top).list ++ t :: s.bottom.list).Perm (b :: (s.top.list ++ s.bottom.list))
          refine List.Perm.cons b ?_
          conv => rhs; rw [et]
          rw [List.append_assoc]
          exact List.Perm.refl _
        have hpe : PoolOk cfg c s.info.isActive (s.info.bond + T'.total) (resetTop cfg c s T').pool := hpool.1
        have hfr := hpool.2
        have hcnt : s'.info.count = s.info.count + (if (k.map Bond.amount).isNone then 1 else 0) := by
          rw [← e1]
          unfold addTopTail putTop incCount resetTop
          rw [hT']
          cases k <;> simp
        have hflds : s'.info.bond = s.info.bond ∧ s'.info.request = s.info.request ∧ s'.info.status = s.info.status ∧
            s'.info.totalCounted = s.info.bond + T'.total ∧ s'.info.lowestTop = lowestAmount T'.list ∧
            s'.info.topCap = capacity cfg.maxTop T'.list ∧ s'.info.lowestBottom = lowestAmount B' ∧
            s'.info.highestBottom = highestAmount B' ∧ s'.info.bottomCap = capacity cfg.maxBottom B' ∧
            s'.top = T' ∧ s'.bottom = ⟨B', sumAmt B' + s.leak⟩ ∧ s'.kicked = s.kicked ++ k.toList ∧ s'.leak = s.leak ∧
            s'.pool = (resetTop cfg c s T').pool := by
          rw [← e1]
          unfold addTopTail putTop incCount resetTop
          rw [hT']
          cases k <;> simp [Info.isActive]
        obtain ⟨f1, f2, f3, f4, f5, f6, f7, f8, f9, f10, f11, f12, f13, f14⟩ := hflds
        have hentry : s'.entries = T'.list ++ B' := by unfold Cand.entries; rw [f10, f11]
        refine ⟨⟨?_, ?_, ?_, ?_⟩, ⟨f1, f2, f3, ?_⟩, f13, k, f12, e2.symm, ?_, ?_⟩
        · rw [f10, f11]
          refine ⟨by rw [← hT']; exact insertSorted_desc hd0 hv b, hdesc, by omega, hlen, fun _ => hlt', ?_⟩
          intro x hx y hy
          rcases List.mem_cons.1 (hpt.mem_iff.1 hy) with rfl | hy
          · rcases hmem x hx with rfl | hx
            · omega
            · have := h.bottom_le_lowestTop hcfg x hx; omega
          · have hyt : y ∈ s.top.list := List.dropLast_subset _ hy
            rcases hmem x hx with rfl | hx
            · exact h.shape.topDesc.last_le ht y hyt
            · exact h.shape.cross x hx y hyt
        · rw [hentry]; exact uniq_of hent
        · refine ⟨by rw [f10]; exact htot, by rw [f11, f13], by rw [f4, f1, f10, htot], ?_, by rw [f5, f10], by rw [f8, f11],
            by rw [f7, f11], by rw [f6, f10], by rw [f9, f11]⟩
          have hl := hperm.length_eq
          rw [List.length_append, Option.isSome_of_toList] at hl
          rw [hcnt, h.cache.count, f10, f11, hlt', hfull]
          simp only [List.length_cons] at hl ⊢
          cases k <;> simp at hl ⊢ <;> omega
        · rw [f4, f14, show s'.info.isActive = s.info.isActive by unfold Info.isActive; rw [f3]]; exact hpe
        · intro x hx; rw [f14]; exact hfr x hx
        · intro x hx
          rw [hk] at hx
          by_cases hbf : s.bottom.list.length = cfg.maxBottom
          · rw [if_pos hbf] at hx
            obtain ⟨p, e⟩ := List.getLast?_eq_some_iff.1 hx
            rw [e]; simp
          · rw [if_neg hbf] at hx; cases hx
        · rw [hentry]; exact hent
    · -- into the bottom
      rw [if_neg hlt] at ho
      obtain ⟨k, B', hk, hks, hperm, hmem, hdesc, hBne, hlen, heq⟩ :=
        addBottom_eq hcfg h.shape.botDesc h.shape.botLen h.cache.botTotal false b
      have key : s' = addBottom cfg false s b ∧ less = k.map Bond.amount := by
        by_cases hbf : s.bottom.list.length = cfg.maxBottom
        · rw [if_pos (hbc.2 hbf)] at ho
          by_cases hgt : b.amount > s.info.lowestBottom
          · rw [if_pos hgt] at ho
            injection ho with ho
            obtain ⟨e1, ho⟩ := Prod.mk.inj ho
            obtain ⟨_, e2⟩ := Prod.mk.inj ho
            refine ⟨e1.symm, ?_⟩
            rw [← e2, hk, if_pos hbf, h.cache.lowestBottom]
            unfold lowestAmount
            cases hg : s.bottom.list.getLast? with
            | none =>
              rw [List.getLast?_eq_none_iff] at hg; rw [hg] at hbf
              have := hcfg.bottom_pos; simp at hbf; omega
            | some z => rfl
          · rw [if_neg hgt] at ho; cases ho
        · rw [if_neg (fun e => hbf (hbc.1 e))] at ho
          injection ho with ho
          obtain ⟨e1, ho⟩ := Prod.mk.inj ho
          obtain ⟨_, e2⟩ := Prod.mk.inj ho
          refine ⟨e1.symm, ?_⟩
          rw [← e2, hk, if_neg hbf]; rfl
      obtain ⟨e1, e2⟩ := key
      rw [heq] at e1
      have hent : (k.toList ++ (s.top.list ++ B')).Perm (b :: s.entries) := by
        have h1 : (k.toList ++ (s.top.list ++ B')).Perm (s.top.list ++ (k.toList ++ B')) := by
          rw [← List.append_assoc, ← List.append_assoc]
          exact List.Perm.append_right _ List.perm_append_comm
        refine h1.trans ((List.Perm.append_left _ hperm).trans ?_)
        exact List.perm_middle
      subst e1
      refine ⟨⟨?_, uniq_of hent, ?_, ?_⟩, ⟨rfl, rfl, rfl, fun _ _ => Iff.rfl⟩, rfl, k, rfl, e2, ?_, hent⟩
      · refine ⟨h.shape.topDesc, hdesc, h.shape.topLen, hlen, fun _ => hfull, ?_⟩
        intro x hx y hy
        rcases hmem x hx with rfl | hx
        · have := lowestAmount_le h.shape.topDesc y hy
          rw [← h.cache.lowestTop] at this
          omega
        · exact h.shape.cross x hx y hy
      · refine ⟨h.cache.topTotal, rfl, h.cache.counted, ?_, h.cache.lowestTop, rfl, rfl, h.cache.topCap, rfl⟩
        have hl := hperm.length_eq
        rw [List.length_append, Option.isSome_of_toList] at hl
        have hc := h.cache.count
        simp only [List.length_cons, Bool.not_false, Bool.and_true] at hl ⊢
        cases k <;> simp at hl ⊢ <;> omega
      · exact h.pool
      · intro x hx
        rw [hk] at hx
        by_cases hbf : s.bottom.list.length = cfg.maxBottom
        · rw [if_pos hbf] at hx
          obtain ⟨p, e⟩ := List.getLast?_eq_some_iff.1 hx
          rw [e]; simp
        · rw [if_neg hbf] at hx; cases hx
  · -- top has room
    rw [if_neg hcap] at ho
    injection ho with ho
    obtain ⟨e1, ho⟩ := Prod.mk.inj ho
    obtain ⟨_, e2⟩ := Prod.mk.inj ho
    have hroom : s.top.list.length < cfg.maxTop := by
      rw [h.cache.topCap, capacity_full] at hcap
      omega
    have hbot : s.bottom.list = [] := by
      by_cases e : s.bottom.list = []
      · exact e
      · have := h.shape.full e; omega
    unfold addTop at e1
    rw [if_neg (by omega)] at e1
    have hv : s.top.list.length < vecCap := by have := hcfg.top_le; omega
    have hpt := insertSorted_perm h.shape.topDesc hv b
    have htot : (insertSorted s.top b).total = sumAmt (insertSorted s.top b).list := by
      rw [sumAmt_perm hpt, sumAmt_cons, insertSorted_total, h.cache.topTotal]; omega
    have hlt' := insertSorted_length h.shape.topDesc hv b
    have hdesc := insertSorted_desc h.shape.topDesc hv b
    generalize hT' : insertSorted s.top b = T' at *
    have hpool := resetTop_pool (s := s) h.pool T'
    have hent : (T'.list ++ s.bottom.list).Perm (b :: s.entries) := List.Perm.append_right _ hpt
    have es : s' = putTop (incCount (resetTop cfg c s T')) T' := by rw [← e1]; unfold addTopTail; rw [hT']; rfl
    subst es
    refine ⟨⟨?_, uniq_of (k := none) hent, ?_, hpool.1⟩, ⟨rfl, rfl, rfl, hpool.2⟩, rfl, none, by simp [putTop, incCount, resetTop], by rw [← e2]; rfl, by simp, hent⟩
    · refine ⟨hdesc, h.shape.botDesc, ?_, h.shape.botLen, fun e => absurd hbot e, ?_⟩
      · show T'.list.length ≤ _; omega
      · intro x hx; rw [show (putTop (incCount (resetTop cfg c s T')) T').bottom.list = s.bottom.list from rfl, hbot] at hx; cases hx
    · refine ⟨htot, h.cache.botTotal, ?_, ?_, rfl, h.cache.highestBottom, h.cache.lowestBottom, rfl, h.cache.bottomCap⟩
      · show s.info.bond + T'.total = s.info.bond + sumAmt T'.list
        rw [htot]
      · show s.info.count + 1 = T'.list.length + s.bottom.list.length
        rw [hlt', h.cache.count]; omega

end Verif.Staking
