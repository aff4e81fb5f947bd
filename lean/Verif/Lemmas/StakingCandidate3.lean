import Verif.Lemmas.StakingCandidate2

/-! # Removing, increasing and decreasing nominations -/

namespace Verif.Staking

section
variable {cfg : Cfg} {c : Nat} {s s' : Cand}

/-- The invariant after an operation that (also) rewrote the top list. -/
theorem CInv.rebuild (h : CInv cfg c s) {T B : Noms} (hshape : Shape cfg T.list B.list) (huniq : Uniq (T.list ++ B.list))
    (hT : T.total = sumAmt T.list) (hB : B.total = sumAmt B.list + s'.leak)
    (e1 : s'.info.bond = s.info.bond) (e2 : s'.info.request = s.info.request) (e3 : s'.info.status = s.info.status)
    (e4 : s'.info.totalCounted = s.info.bond + T.total) (e5 : s'.info.count = T.list.length + B.list.length)
    (e6 : s'.info.lowestTop = lowestAmount T.list) (e7 : s'.info.topCap = capacity cfg.maxTop T.list)
    (e8 : s'.info.highestBottom = highestAmount B.list) (e9 : s'.info.lowestBottom = lowestAmount B.list)
    (e10 : s'.info.bottomCap = capacity cfg.maxBottom B.list) (e11 : s'.top = T) (e12 : s'.bottom = B)
    (e13 : s'.pool = (resetTop cfg c s T).pool) : CInv cfg c s' ∧ Frame c s s' := by
  have hp := resetTop_pool h.pool T
  refine ⟨⟨by rw [e11, e12]; exact hshape, by unfold Cand.entries; rw [e11, e12]; exact huniq, ?_, ?_⟩,
    ⟨e1, e2, e3, fun x hx => by rw [e13]; exact hp.2 x hx⟩⟩
  · exact ⟨by rw [e11]; exact hT, by rw [e12]; exact hB, by rw [e4, e11, e1, hT], by rw [e5, e11, e12], by rw [e6, e11],
      by rw [e8, e12], by rw [e9, e12], by rw [e7, e11], by rw [e10, e12]⟩
  · rw [e4, e13, show s'.info.isActive = s.info.isActive by unfold Info.isActive; rw [e3]]; exact hp.1

/-- The invariant after an operation on the bottom list only. -/
theorem CInv.rebuildBottom (h : CInv cfg c s) {B : Noms} (hshape : Shape cfg s.top.list B.list)
    (huniq : Uniq (s.top.list ++ B.list)) (hB : B.total = sumAmt B.list + s'.leak)
    (e1 : s'.info.bond = s.info.bond) (e2 : s'.info.request = s.info.request) (e3 : s'.info.status = s.info.status)
    (e4 : s'.info.totalCounted = s.info.totalCounted) (e5 : s'.info.count = s.top.list.length + B.list.length)
    (e6 : s'.info.lowestTop = s.info.lowestTop) (e7 : s'.info.topCap = s.info.topCap)
    (e8 : s'.info.highestBottom = highestAmount B.list) (e9 : s'.info.lowestBottom = lowestAmount B.list)
    (e10 : s'.info.bottomCap = capacity cfg.maxBottom B.list) (e11 : s'.top = s.top) (e12 : s'.bottom = B)
    (e13 : s'.pool = s.pool) : CInv cfg c s' ∧ Frame c s s' := by
  refine ⟨⟨by rw [e11, e12]; exact hshape, by unfold Cand.entries; rw [e11, e12]; exact huniq, ?_, ?_⟩,
    ⟨e1, e2, e3, fun x _ => by rw [e13]⟩⟩
  · exact ⟨by rw [e11]; exact h.cache.topTotal, by rw [e12]; exact hB, by rw [e4, e11, e1]; exact h.cache.counted,
      by rw [e5, e11, e12], by rw [e6, e11]; exact h.cache.lowestTop,
      by rw [e8, e12], by rw [e9, e12], by rw [e7, e11]; exact h.cache.topCap, by rw [e10, e12]⟩
  · rw [e4, e13, show s'.info.isActive = s.info.isActive by unfold Info.isActive; rw [e3]]; exact h.pool

theorem CInv.bottomCap_empty (hcfg : cfg.Ok) (h : CInv cfg c s) : s.info.bottomCap = .empty ↔ s.bottom.list = [] := by
  rw [h.cache.bottomCap]; exact capacity_empty hcfg.bottom_pos

theorem sum_without {l : List Bond} (u : Uniq l) {d : Bond} (hd : d ∈ l) : sumAmt l = d.amount + sumAmt (without l d.owner) := by
  rw [sumAmt_perm (without_perm u hd)]; rfl

theorem length_without {l : List Bond} (u : Uniq l) {d : Bond} (hd : d ∈ l) : l.length = (without l d.owner).length + 1 := by
  rw [(without_perm u hd).length_eq]; rfl

theorem sum_adjust {l : List Bond} (u : Uniq l) {d : Bond} (hd : d ∈ l) (f : Nat → Nat) :
    sumAmt (adjust l d.owner f) = f d.amount + sumAmt (without l d.owner) := by
  rw [sumAmt_perm (adjust_split u hd f)]; rfl

theorem Uniq.without {l : List Bond} (u : Uniq l) (n : Nat) : Uniq (without l n) := by
  have := List.Sublist.map Bond.owner (without_sublist l n)
  exact List.Nodup.sublist this u

theorem Uniq.adjust {l : List Bond} (u : Uniq l) (n : Nat) (f : Nat → Nat) : Uniq (adjust l n f) := by
  unfold Uniq; rw [adjust_owner]; exact u

theorem adjust_mem {l : List Bond} {n : Nat} {f : Nat → Nat} {x : Bond} (hx : x ∈ adjust l n f) :
    ∃ y ∈ l, (y.owner ≠ n ∧ x = y) ∨ (y.owner = n ∧ x = ⟨y.owner, f y.amount⟩) := by
  obtain ⟨y, hy, e⟩ := List.mem_map.1 hx
  by_cases h : y.owner ≠ n
  · rw [if_pos h] at e; exact ⟨y, hy, Or.inl ⟨h, e.symm⟩⟩
  · rw [if_neg h] at e; exact ⟨y, hy, Or.inr ⟨Decidable.of_not_not h, e.symm⟩⟩

/-! ### Removing -/

theorem rmTop_ok (hcfg : cfg.Ok) (h : CInv cfg c s) {d : Bond} (hd : d ∈ s.top.list) :
    ∃ s', rmTop cfg c s d.owner = .ok s' ∧ CInv cfg c s' ∧ Frame c s s' ∧ s'.leak = s.leak ∧ s'.kicked = s.kicked ∧
      s'.entries.Perm (without s.entries d.owner) := by
  have hu := h.uniqTop
  have hsum := sum_without hu hd
  have hlen := length_without hu hd
  have hbw : without s.bottom.list d.owner = s.bottom.list :=
    without_of_absent (fun x hx => (h.disjoint hd hx).symm)
  have hwe : without s.entries d.owner = without s.top.list d.owner ++ s.bottom.list := by
    unfold Cand.entries; rw [without_append, hbw]
  have huw : Uniq (without s.top.list d.owner ++ s.bottom.list) := by rw [← hwe]; exact h.uniq.without _
  have hdw : Desc (without s.top.list d.owner) := h.shape.topDesc.sublist (without_sublist _ _)
  have htl := h.shape.topLen
  unfold rmTop
  rw [findOwner_mem hu hd]
  dsimp only
  refine ⟨_, rfl, ?_⟩
  have hcount := h.cache.count
  by_cases hb : s.bottom.list = []
  · unfold rmTopTail
    rw [(h.bottomCap_empty hcfg).2 hb]
    dsimp only
    have := CInv.rebuild (s' := putTop (decCount (resetTop cfg c s ⟨without s.top.list d.owner, s.top.total - d.amount⟩))
        ⟨without s.top.list d.owner, s.top.total - d.amount⟩) h (T := ⟨without s.top.list d.owner, s.top.total - d.amount⟩)
        (B := s.bottom) ⟨hdw, h.shape.botDesc, by dsimp only; omega, h.shape.botLen, fun e => absurd hb e, by rw [hb]; simp⟩ huw
        (by dsimp only; rw [h.cache.topTotal]; omega) h.cache.botTotal rfl rfl rfl rfl
        (by show s.info.count - 1 = _; rw [hcount]; dsimp only; omega) rfl rfl h.cache.highestBottom h.cache.lowestBottom h.cache.bottomCap
        rfl rfl rfl
    refine ⟨this.1, this.2, rfl, rfl, ?_⟩
    rw [hwe]; exact List.Perm.refl _
  · obtain ⟨b0, bs, hbe⟩ : ∃ b0 bs, s.bottom.list = b0 :: bs := by
      cases e : s.bottom.list with
      | nil => exact absurd e hb
      | cons x l => exact ⟨x, l, rfl⟩
    have hnc : s.info.bottomCap ≠ .empty := fun e => hb ((h.bottomCap_empty hcfg).1 e)
    have hfull := h.shape.full hb
    have hv : (without s.top.list d.owner).length < vecCap := by have := hcfg.top_le; omega
    have hdb := h.shape.botDesc
    rw [hbe] at hdb
    obtain ⟨hb1, hb2⟩ := List.pairwise_cons.1 hdb
    have hperm := insertSorted_perm (n := ⟨without s.top.list d.owner, s.top.total - d.amount⟩) hdw hv b0
    have hdesc := insertSorted_desc (n := ⟨without s.top.list d.owner, s.top.total - d.amount⟩) hdw hv b0
    have hl := insertSorted_length (n := ⟨without s.top.list d.owner, s.top.total - d.amount⟩) hdw hv b0
    have hcap : ∃ x, x ≠ Capacity.empty ∧ s.info.bottomCap = x := ⟨_, hnc, rfl⟩
    have hgoal : rmTopTail cfg c s ⟨without s.top.list d.owner, s.top.total - d.amount⟩ =
        putTop (decCount (resetTop cfg c (putBottom (resetBottom cfg s (popFirst s.bottom)) (popFirst s.bottom))
          (insertSorted ⟨without s.top.list d.owner, s.top.total - d.amount⟩ b0))) (insertSorted ⟨without s.top.list d.owner, s.top.total - d.amount⟩ b0) := by
      unfold rmTopTail
      rw [show s.bottom.list.head? = some b0 by rw [hbe]; rfl]
      cases hx : s.info.bottomCap with
      | empty => exact absurd hx hnc
      | full => rfl
      | some => rfl
    rw [hgoal]
    have htail : (popFirst s.bottom).list = bs := by unfold popFirst; rw [hbe]; rfl
    have htot : (insertSorted ⟨without s.top.list d.owner, s.top.total - d.amount⟩ b0).total =
        sumAmt (insertSorted ⟨without s.top.list d.owner, s.top.total - d.amount⟩ b0).list := by
      rw [sumAmt_perm hperm, insertSorted_total, sumAmt_cons]
      dsimp only
      rw [h.cache.topTotal]; omega
    have hent : ((insertSorted ⟨without s.top.list d.owner, s.top.total - d.amount⟩ b0).list ++ (popFirst s.bottom).list).Perm
        (without s.entries d.owner) := by
      rw [hwe, htail, hbe]
      refine (List.Perm.append_right _ hperm).trans ?_
      exact List.perm_middle.symm
    generalize hT : insertSorted ⟨without s.top.list d.owner, s.top.total - d.amount⟩ b0 = T at *
    have := CInv.rebuild (s' := putTop (decCount (resetTop cfg c (putBottom (resetBottom cfg s (popFirst s.bottom)) (popFirst s.bottom)) T)) T)
        h (T := T) (B := popFirst s.bottom)
        ⟨hdesc, by rw [htail]; exact hb2, by rw [hl]; dsimp only; omega, by
          have := h.shape.botLen; rw [htail]; rw [hbe] at this; simp only [List.length_cons] at this; omega,
         fun _ => by rw [hl]; dsimp only; omega, by
          rw [htail]
          intro x hx y hy
          rcases List.mem_cons.1 (hperm.mem_iff.1 hy) with rfl | hy
          · exact hb1 x hx
          · exact h.shape.cross x (by rw [hbe]; exact List.mem_cons_of_mem _ hx) y (without_mem.1 hy).1⟩
        (Uniq.perm hent (h.uniq.without _)) htot
        (by show s.bottom.total - highestAmount s.bottom.list = _ + s.leak
            rw [htail, h.cache.botTotal, hbe, sumAmt_cons]
            show _ - b0.amount = _
            omega) rfl rfl rfl rfl
        (by show s.info.count - 1 = _; rw [hcount, hl, htail, hbe]; simp only [List.length_cons]; omega) rfl rfl rfl rfl rfl rfl rfl rfl
    exact ⟨this.1, this.2, rfl, rfl, hent⟩

theorem rmBottom_ok (h : CInv cfg c s) {d : Bond} (hd : d ∈ s.bottom.list) :
    ∃ s', rmBottom cfg s d.owner = .ok s' ∧ CInv cfg c s' ∧ Frame c s s' ∧ s'.leak = s.leak ∧ s'.kicked = s.kicked ∧
      s'.entries.Perm (without s.entries d.owner) := by
  have hu := h.uniqBottom
  have hsum := sum_without hu hd
  have hlen := length_without hu hd
  have htw : without s.top.list d.owner = s.top.list := without_of_absent (fun x hx => h.disjoint hx hd)
  have hwe : without s.entries d.owner = s.top.list ++ without s.bottom.list d.owner := by
    unfold Cand.entries; rw [without_append, htw]
  have huw : Uniq (s.top.list ++ without s.bottom.list d.owner) := by rw [← hwe]; exact h.uniq.without _
  unfold rmBottom
  rw [findOwner_mem hu hd]
  dsimp only
  refine ⟨_, rfl, ?_⟩
  have hcount := h.cache.count
  have hbl := h.shape.botLen
  have := CInv.rebuildBottom (s' := putBottom (decCount (resetBottom cfg s ⟨without s.bottom.list d.owner, s.bottom.total - d.amount⟩))
      ⟨without s.bottom.list d.owner, s.bottom.total - d.amount⟩) h (B := ⟨without s.bottom.list d.owner, s.bottom.total - d.amount⟩)
      ⟨h.shape.topDesc, h.shape.botDesc.sublist (without_sublist _ _), h.shape.topLen, by dsimp only; omega,
        fun _ => h.shape.full (by intro e; rw [e] at hd; cases hd),
        fun x hx y hy => h.shape.cross x (without_mem.1 hx).1 y hy⟩ huw
      (by show s.bottom.total - d.amount = sumAmt (without s.bottom.list d.owner) + s.leak
          rw [h.cache.botTotal]; omega) rfl rfl rfl rfl
      (by show s.info.count - 1 = _; rw [hcount]; dsimp only; omega) rfl rfl rfl rfl rfl rfl rfl rfl
  refine ⟨this.1, this.2, rfl, rfl, ?_⟩
  rw [hwe]; exact List.Perm.refl _

theorem findOwner_absent {l : List Bond} {n : Nat} (h : ∀ x ∈ l, x.owner ≠ n) : findOwner l n = none := by
  unfold findOwner
  rw [List.find?_eq_none]
  intro x hx; simpa using h x hx

theorem top_ge_lowest (h : CInv cfg c s) {d : Bond} (hd : d ∈ s.top.list) : d.amount ≥ s.info.lowestTop := by
  rw [h.cache.lowestTop]; exact lowestAmount_le h.shape.topDesc d hd

theorem bottom_eq_of_ge (hcfg : cfg.Ok) (h : CInv cfg c s) {d : Bond} (hd : d ∈ s.bottom.list)
    (hge : d.amount ≥ s.info.lowestTop) : s.info.lowestTop = s.info.highestBottom := by
  have h1 := le_highestAmount h.shape.botDesc d hd
  rw [← h.cache.highestBottom] at h1
  have h2 := h.highestBottom_le hcfg
  omega

/-- `rm_nomination_if_exists` called with the recorded amount removes exactly that nomination. -/
theorem rmNomination_ok (hcfg : cfg.Ok) (h : CInv cfg c s) {d : Bond} (hd : d ∈ s.entries) :
    ∃ s', rmNomination cfg c s d.owner d.amount = .ok s' ∧ CInv cfg c s' ∧ Frame c s s' ∧ s'.leak = s.leak ∧
      s'.kicked = s.kicked ∧ s'.entries.Perm (without s.entries d.owner) := by
  unfold rmNomination
  rcases List.mem_append.1 hd with ht | hb
  · obtain ⟨s', e, r⟩ := rmTop_ok hcfg h ht
    have hge := top_ge_lowest h ht
    refine ⟨s', ?_, r⟩
    by_cases h1 : s.info.topCap ≠ .full ∨ (d.amount ≥ s.info.lowestTop ∧ s.info.lowestTop ≠ s.info.highestBottom)
    · rw [if_pos h1, e]
    · rw [if_neg h1]
      have h2 : d.amount ≥ s.info.lowestTop ∧ s.info.lowestTop = s.info.highestBottom :=
        ⟨hge, Decidable.of_not_not (fun e => h1 (Or.inr ⟨hge, e⟩))⟩
      rw [if_pos h2, e]
  · obtain ⟨s', e, r⟩ := rmBottom_ok h hb
    refine ⟨s', ?_, r⟩
    have hfull : s.info.topCap = .full := by
      rw [h.cache.topCap, capacity_full, h.shape.full (by intro e; rw [e] at hb; cases hb)]
      exact Nat.le_refl _
    have hno : rmTop cfg c s d.owner = .error .nominationDNE := by
      unfold rmTop; rw [findOwner_absent (fun x hx => h.disjoint hx hb)]
    by_cases hge : d.amount ≥ s.info.lowestTop
    · have heq := bottom_eq_of_ge hcfg h hb hge
      rw [if_neg (by simp [hfull, heq]), if_pos ⟨hge, heq⟩, hno]
      exact e
    · rw [if_neg (by simp [hfull]; omega), if_neg (by omega)]
      exact e

/-! ### Increasing -/

theorem increaseTop_ok (h : CInv cfg c s) {d : Bond} (hd : d ∈ s.top.list) (more : Nat) :
    ∃ s', increaseTop cfg c s d.owner more = .ok (s', true) ∧ CInv cfg c s' ∧ Frame c s s' ∧ s'.leak = s.leak ∧
      s'.kicked = s.kicked ∧ s'.entries.Perm (adjust s.entries d.owner (· + more)) := by
  have hu := h.uniqTop
  have hsum := sum_without hu hd
  have hbw : adjust s.bottom.list d.owner (· + more) = s.bottom.list :=
    adjust_of_absent _ (fun x hx => (h.disjoint hd hx).symm)
  have hent : (sortNoms (adjust s.top.list d.owner (· + more)) ++ s.bottom.list).Perm (adjust s.entries d.owner (· + more)) := by
    unfold Cand.entries; rw [adjust_append, hbw]
    exact List.Perm.append_right _ (sortNoms_perm _)
  unfold increaseTop
  rw [findOwner_mem hu hd]
  dsimp only
  have hl : (sortNoms (adjust s.top.list d.owner (· + more))).length = s.top.list.length := by
    rw [(sortNoms_perm _).length_eq, adjust_length]
  refine ⟨_, rfl, ?_⟩
  have := CInv.rebuild (s' := putTop (resetTop cfg c s ⟨sortNoms (adjust s.top.list d.owner (· + more)), s.top.total + more⟩)
      ⟨sortNoms (adjust s.top.list d.owner (· + more)), s.top.total + more⟩) h
      (T := ⟨sortNoms (adjust s.top.list d.owner (· + more)), s.top.total + more⟩) (B := s.bottom)
      ⟨sortNoms_desc _, h.shape.botDesc, by rw [hl]; exact h.shape.topLen, h.shape.botLen, by rw [hl]; exact h.shape.full, by
        intro x hx y hy
        obtain ⟨z, hz, (⟨_, rfl⟩ | ⟨_, rfl⟩)⟩ := adjust_mem ((sortNoms_perm _).mem_iff.1 hy)
        · exact h.shape.cross x hx y hz
        · have := h.shape.cross x hx z hz; dsimp only; omega⟩
      (Uniq.perm hent (h.uniq.adjust _ _))
      (by dsimp only; rw [sumAmt_perm (sortNoms_perm _), sum_adjust hu hd, h.cache.topTotal]; omega) h.cache.botTotal rfl rfl rfl rfl
      (by show s.info.count = _; rw [h.cache.count, hl]) rfl rfl h.cache.highestBottom h.cache.lowestBottom h.cache.bottomCap rfl rfl rfl
  exact ⟨this.1, this.2, rfl, rfl, hent⟩

theorem increaseBottom_ok (hcfg : cfg.Ok) (h : CInv cfg c s) {d : Bond} (hd : d ∈ s.bottom.list) (more : Nat) :
    ∃ s' t, increaseBottom cfg c s d.owner d.amount more = .ok (s', t) ∧ CInv cfg c s' ∧ Frame c s s' ∧ s'.leak = s.leak ∧
      s'.kicked = s.kicked ∧ s'.entries.Perm (adjust s.entries d.owner (· + more)) := by
  have hu := h.uniqBottom
  have hsum := sum_without hu hd
  have hlen := length_without hu hd
  have htw : adjust s.top.list d.owner (· + more) = s.top.list := adjust_of_absent _ (fun x hx => h.disjoint hx hd)
  have hne : s.bottom.list ≠ [] := by intro e; rw [e] at hd; cases hd
  have hfull := h.shape.full hne
  unfold increaseBottom
  rw [findOwner_mem hu hd]
  dsimp only
  by_cases hgt : d.amount + more > s.info.lowestTop
  · rw [if_pos hgt]
    refine ⟨_, _, rfl, ?_⟩
    unfold bumpUp
    rw [capacity_full.2 (by omega : cfg.maxTop ≤ s.top.list.length)]
    cases ht : s.top.list.getLast? with
    | none =>
      rw [List.getLast?_eq_none_iff] at ht; rw [ht] at hfull
      have := hcfg.top_pos; simp at hfull; omega
    | some t =>
      dsimp only
      have et := eq_dropLast_append ht
      have htm : t ∈ s.top.list := by rw [et]; simp
      have hlow : s.info.lowestTop = t.amount := by rw [h.cache.lowestTop]; unfold lowestAmount; rw [ht]; rfl
      have hd0 : Desc (popLast s.top).list := h.shape.topDesc.sublist (List.dropLast_sublist _)
      have hl0 : (popLast s.top).list.length + 1 = cfg.maxTop := by
        rw [← hfull]; show s.top.list.dropLast.length + 1 = _
        rw [List.length_dropLast]; have := hcfg.top_pos; omega
      have hv : (popLast s.top).list.length < vecCap := by have := hcfg.top_le; omega
      have hsumT : sumAmt s.top.list = sumAmt (popLast s.top).list + t.amount := by
        conv => lhs; rw [et]
        rw [sumAmt_append]; rfl
      have hpt := insertSorted_perm hd0 hv ⟨d.owner, d.amount + more⟩
      have hlt := insertSorted_length hd0 hv ⟨d.owner, d.amount + more⟩
      have hdt := insertSorted_desc hd0 hv ⟨d.owner, d.amount + more⟩
      have htotT : (insertSorted (popLast s.top) ⟨d.owner, d.amount + more⟩).total =
          sumAmt (insertSorted (popLast s.top) ⟨d.owner, d.amount + more⟩).list := by
        rw [sumAmt_perm hpt, insertSorted_total, sumAmt_cons]
        show s.top.total - lowestAmount s.top.list + _ = _
        rw [h.cache.topTotal, hsumT, ← h.cache.lowestTop, hlow]; dsimp only; omega
      have hbl := h.shape.botLen
      have hdw : Desc (without s.bottom.list d.owner) := h.shape.botDesc.sublist (without_sublist _ _)
      have hvb : (without s.bottom.list d.owner).length < vecCap := by have := hcfg.bottom_le; omega
      have hpb := insertSorted_perm (n := ⟨without s.bottom.list d.owner, s.bottom.total - d.amount⟩) hdw hvb t
      have hlb := insertSorted_length (n := ⟨without s.bottom.list d.owner, s.bottom.total - d.amount⟩) hdw hvb t
      have hdb := insertSorted_desc (n := ⟨without s.bottom.list d.owner, s.bottom.total - d.amount⟩) hdw hvb t
      have htotB : (insertSorted ⟨without s.bottom.list d.owner, s.bottom.total - d.amount⟩ t).total =
          sumAmt (insertSorted ⟨without s.bottom.list d.owner, s.bottom.total - d.amount⟩ t).list + s.leak := by
        rw [sumAmt_perm hpb, insertSorted_total, sumAmt_cons]
        dsimp only
        rw [h.cache.botTotal]; omega
      generalize hT : insertSorted (popLast s.top) ⟨d.owner, d.amount + more⟩ = T at *
      generalize hB : insertSorted ⟨without s.bottom.list d.owner, s.bottom.total - d.amount⟩ t = B at *
      have hent : (T.list ++ B.list).Perm (adjust s.entries d.owner (· + more)) := by
        unfold Cand.entries; rw [adjust_append, htw]
        refine (hpt.append hpb).trans ?_
        refine List.Perm.trans ?_ (List.Perm.append_left _ (adjust_split hu hd (· + more)).symm)
        rw [et]
        simp only [List.append_assoc, List.cons_append, List.nil_append]
        have e0 : (popLast s.top).list = s.top.list.dropLast := rfl
        rw [e0]
        have : (s.top.list.dropLast ++ [t]).dropLast = s.top.list.dropLast := by simp
        try rw [this]
        refine List.Perm.trans (List.perm_middle (a := ({ owner := d.owner, amount := d.amount + more } : Bond)) (l₁ := s.top.list.dropLast)).symm ?_
        exact List.Perm.append_left _ (List.Perm.swap _ _ _)
      have := CInv.rebuild (s' := putBottom (resetBottom cfg (putTop (resetTop cfg c s T) T) B) B) h (T := T) (B := B)
        ⟨hdt, hdb, by omega, by rw [hlb]; dsimp only; omega, fun _ => by omega, by
          intro x hx y hy
          have hx := List.mem_cons.1 (hpb.mem_iff.1 hx)
          rcases List.mem_cons.1 (hpt.mem_iff.1 hy) with rfl | hy
          · rcases hx with rfl | hx
            · dsimp only; omega
            · have := h.bottom_le_lowestTop hcfg x (without_mem.1 hx).1; dsimp only; omega
          · have hyt : y ∈ s.top.list := List.dropLast_subset _ hy
            rcases hx with rfl | hx
            · exact h.shape.topDesc.last_le ht y hyt
            · exact h.shape.cross x (without_mem.1 hx).1 y hyt⟩
        (Uniq.perm hent (h.uniq.adjust _ _)) htotT htotB rfl rfl rfl rfl
        (by show s.info.count = _; rw [h.cache.count, hlb, hlt]; dsimp only; omega) rfl rfl rfl rfl rfl rfl rfl rfl
      exact ⟨this.1, this.2, rfl, rfl, hent⟩
  · rw [if_neg hgt]
    refine ⟨_, _, rfl, ?_⟩
    have hl : (sortNoms (adjust s.bottom.list d.owner (· + more))).length = s.bottom.list.length := by
      rw [(sortNoms_perm _).length_eq, adjust_length]
    have hent : (s.top.list ++ sortNoms (adjust s.bottom.list d.owner (· + more))).Perm (adjust s.entries d.owner (· + more)) := by
      unfold Cand.entries; rw [adjust_append, htw]
      exact List.Perm.append_left _ (sortNoms_perm _)
    have := CInv.rebuildBottom (s' := putBottom (resetBottom cfg s ⟨sortNoms (adjust s.bottom.list d.owner (· + more)), s.bottom.total + more⟩)
        ⟨sortNoms (adjust s.bottom.list d.owner (· + more)), s.bottom.total + more⟩) h
        (B := ⟨sortNoms (adjust s.bottom.list d.owner (· + more)), s.bottom.total + more⟩)
        ⟨h.shape.topDesc, sortNoms_desc _, h.shape.topLen, by rw [hl]; exact h.shape.botLen, fun _ => hfull, by
          intro x hx y hy
          obtain ⟨z, hz, (⟨_, rfl⟩ | ⟨hzo, rfl⟩)⟩ := adjust_mem ((sortNoms_perm _).mem_iff.1 hx)
          · exact h.shape.cross x hz y hy
          · have : z = d := hu.eq hz hd hzo
            subst this
            have := top_ge_lowest h hy
            dsimp only; omega⟩
        (Uniq.perm hent (h.uniq.adjust _ _))
        (by show s.bottom.total + more = sumAmt (sortNoms (adjust s.bottom.list d.owner (· + more))) + s.leak
            rw [sumAmt_perm (sortNoms_perm _), sum_adjust hu hd, h.cache.botTotal]; omega) rfl rfl rfl rfl
        (by show s.info.count = _; rw [h.cache.count, hl]) rfl rfl rfl rfl rfl rfl rfl rfl
    exact ⟨this.1, this.2, rfl, rfl, hent⟩

/-- `increase_nomination` called with the recorded amount increases exactly that nomination. -/
theorem increaseNomination_ok (hcfg : cfg.Ok) (h : CInv cfg c s) {d : Bond} (hd : d ∈ s.entries) (more : Nat) :
    ∃ s' t, increaseNomination cfg c s d.owner d.amount more = .ok (s', t) ∧ CInv cfg c s' ∧ Frame c s s' ∧ s'.leak = s.leak ∧
      s'.kicked = s.kicked ∧ s'.entries.Perm (adjust s.entries d.owner (· + more)) := by
  unfold increaseNomination
  rcases List.mem_append.1 hd with ht | hb
  · obtain ⟨s', e, r⟩ := increaseTop_ok h ht more
    have hge := top_ge_lowest h ht
    refine ⟨s', true, ?_, r⟩
    by_cases h1 : s.info.lowestTop = s.info.highestBottom
    · rw [if_neg (by simp [h1]), if_pos ⟨hge, h1⟩, e]
    · rw [if_pos ⟨hge, h1⟩, e]
  · obtain ⟨s', t, e, r⟩ := increaseBottom_ok hcfg h hb more
    refine ⟨s', t, ?_, r⟩
    have hno : increaseTop cfg c s d.owner more = .error .nominationDNE := by
      unfold increaseTop; rw [findOwner_absent (fun x hx => h.disjoint hx hb)]
    by_cases hge : d.amount ≥ s.info.lowestTop
    · have heq := bottom_eq_of_ge hcfg h hb hge
      rw [if_neg (by simp [heq]), if_pos ⟨hge, heq⟩, hno]
      exact e
    · rw [if_neg (by omega), if_neg (by omega)]
      exact e

/-! ### Decreasing -/

theorem decreaseTop_ok (hcfg : cfg.Ok) (h : CInv cfg c s) {d : Bond} (hd : d ∈ s.top.list) {less : Nat} (hless : less ≤ d.amount) :
    ∃ s' t, decreaseTop cfg c s d.owner d.amount less = .ok (s', t) ∧ CInv cfg c s' ∧ Frame c s s' ∧ s'.leak = s.leak ∧
      s'.kicked = s.kicked ∧ s'.entries.Perm (adjust s.entries d.owner (· - less)) := by
  have hu := h.uniqTop
  have hsum := sum_without hu hd
  have hlen := length_without hu hd
  have hbw : adjust s.bottom.list d.owner (· - less) = s.bottom.list :=
    adjust_of_absent _ (fun x hx => (h.disjoint hd hx).symm)
  have htl := h.shape.topLen
  unfold decreaseTop
  rw [findOwner_mem hu hd]
  dsimp only
  by_cases hc : d.amount - less < s.info.highestBottom ∧ s.info.topCap = .full ∧ s.info.bottomCap ≠ .empty
  · rw [if_pos hc]
    refine ⟨_, _, rfl, ?_⟩
    obtain ⟨hlt, hfull, hne⟩ := hc
    have hb : s.bottom.list ≠ [] := fun e => hne ((h.bottomCap_empty hcfg).2 e)
    have hfull := h.shape.full hb
    obtain ⟨b0, bs, hbe⟩ : ∃ b0 bs, s.bottom.list = b0 :: bs := by
      cases e : s.bottom.list with
      | nil => exact absurd e hb
      | cons x l => exact ⟨x, l, rfl⟩
    unfold swapDown
    rw [show s.bottom.list.head? = some b0 by rw [hbe]; rfl]
    dsimp only
    have hb0 : s.info.highestBottom = b0.amount := by rw [h.cache.highestBottom, hbe]; rfl
    have hdb := h.shape.botDesc
    rw [hbe] at hdb
    obtain ⟨hb1, hb2⟩ := List.pairwise_cons.1 hdb
    have htail : (popFirst s.bottom).list = bs := by unfold popFirst; rw [hbe]; rfl
    have hbl := h.shape.botLen
    have hbl' : bs.length + 1 ≤ cfg.maxBottom := by rw [hbe] at hbl; simpa using hbl
    have hvb : (popFirst s.bottom).list.length < vecCap := by rw [htail]; have := hcfg.bottom_le; omega
    have hdp : Desc (popFirst s.bottom).list := by rw [htail]; exact hb2
    have hpb := insertSorted_perm hdp hvb ⟨d.owner, d.amount - less⟩
    have hlb := insertSorted_length hdp hvb ⟨d.owner, d.amount - less⟩
    have hdB := insertSorted_desc hdp hvb ⟨d.owner, d.amount - less⟩
    have htotB : (insertSorted (popFirst s.bottom) ⟨d.owner, d.amount - less⟩).total =
        sumAmt (insertSorted (popFirst s.bottom) ⟨d.owner, d.amount - less⟩).list + s.leak := by
      rw [sumAmt_perm hpb, insertSorted_total, sumAmt_cons]
      show s.bottom.total - highestAmount s.bottom.list + _ = _
      rw [htail, h.cache.botTotal, hbe, sumAmt_cons]
      show _ - b0.amount + _ = _
      omega
    have hdw : Desc (without s.top.list d.owner) := h.shape.topDesc.sublist (without_sublist _ _)
    have hv : (without s.top.list d.owner).length < vecCap := by have := hcfg.top_le; omega
    have hpt := insertSorted_perm (n := ⟨without s.top.list d.owner, s.top.total - d.amount⟩) hdw hv b0
    have hlt' := insertSorted_length (n := ⟨without s.top.list d.owner, s.top.total - d.amount⟩) hdw hv b0
    have hdT := insertSorted_desc (n := ⟨without s.top.list d.owner, s.top.total - d.amount⟩) hdw hv b0
    have htotT : (insertSorted ⟨without s.top.list d.owner, s.top.total - d.amount⟩ b0).total =
        sumAmt (insertSorted ⟨without s.top.list d.owner, s.top.total - d.amount⟩ b0).list := by
      rw [sumAmt_perm hpt, insertSorted_total, sumAmt_cons]
      dsimp only
      rw [h.cache.topTotal]; omega
    generalize hT : insertSorted ⟨without s.top.list d.owner, s.top.total - d.amount⟩ b0 = T at *
    generalize hB : insertSorted (popFirst s.bottom) ⟨d.owner, d.amount - less⟩ = B at *
    have hent : (T.list ++ B.list).Perm (adjust s.entries d.owner (· - less)) := by
      unfold Cand.entries; rw [adjust_append, hbw]
      refine (hpt.append hpb).trans ?_
      refine List.Perm.trans ?_ (List.Perm.append_right _ (adjust_split hu hd (· - less)).symm)
      rw [htail, hbe]
      simp only [List.cons_append]
      have e1 : (b0 :: (without s.top.list d.owner ++ ({ owner := d.owner, amount := d.amount - less } : Bond) :: bs)).Perm
          (b0 :: ({ owner := d.owner, amount := d.amount - less } : Bond) :: (without s.top.list d.owner ++ bs)) :=
        List.Perm.cons _ List.perm_middle
      refine e1.trans ((List.Perm.swap _ _ _).trans (List.Perm.cons _ ?_))
      exact List.perm_middle.symm
    have := CInv.rebuild (s' := putTop (resetTop cfg c (putBottom (resetBottom cfg s B) B) T) T) h (T := T) (B := B)
      ⟨hdT, hdB, by rw [hlt']; dsimp only; omega, by rw [hlb, htail]; omega, fun _ => by rw [hlt']; dsimp only; omega, by
        intro x hx y hy
        have hx := List.mem_cons.1 (hpb.mem_iff.1 hx)
        rw [htail] at hx
        rcases List.mem_cons.1 (hpt.mem_iff.1 hy) with rfl | hy
        · rcases hx with rfl | hx
          · dsimp only; omega
          · exact hb1 x hx
        · have hyt : y ∈ s.top.list := (without_mem.1 hy).1
          have hb0m : b0 ∈ s.bottom.list := by rw [hbe]; exact List.mem_cons_self
          rcases hx with rfl | hx
          · have := h.shape.cross b0 hb0m y hyt
            dsimp only; omega
          · exact h.shape.cross x (by rw [hbe]; exact List.mem_cons_of_mem _ hx) y hyt⟩
      (Uniq.perm hent (h.uniq.adjust _ _)) htotT htotB rfl rfl rfl rfl
      (by show s.info.count = _; rw [h.cache.count, hlb, hlt', htail, hbe]; simp only [List.length_cons]; omega) rfl rfl rfl rfl rfl rfl rfl rfl
    exact ⟨this.1, this.2, rfl, rfl, hent⟩
  · rw [if_neg hc]
    refine ⟨_, _, rfl, ?_⟩
    have hent : (sortNoms (adjust s.top.list d.owner (· - less)) ++ s.bottom.list).Perm (adjust s.entries d.owner (· - less)) := by
      unfold Cand.entries; rw [adjust_append, hbw]
      exact List.Perm.append_right _ (sortNoms_perm _)
    have hl : (sortNoms (adjust s.top.list d.owner (· - less))).length = s.top.list.length := by
      rw [(sortNoms_perm _).length_eq, adjust_length]
    have := CInv.rebuild (s' := putTop (resetTop cfg c s ⟨sortNoms (adjust s.top.list d.owner (· - less)), s.top.total - less⟩)
        ⟨sortNoms (adjust s.top.list d.owner (· - less)), s.top.total - less⟩) h
        (T := ⟨sortNoms (adjust s.top.list d.owner (· - less)), s.top.total - less⟩) (B := s.bottom)
        ⟨sortNoms_desc _, h.shape.botDesc, by rw [hl]; exact h.shape.topLen, h.shape.botLen, by rw [hl]; exact h.shape.full, by
          intro x hx y hy
          obtain ⟨z, hz, (⟨_, rfl⟩ | ⟨hzo, rfl⟩)⟩ := adjust_mem ((sortNoms_perm _).mem_iff.1 hy)
          · exact h.shape.cross x hx y hz
          · have : z = d := hu.eq hz hd hzo
            subst this
            have hne : s.bottom.list ≠ [] := by intro e; rw [e] at hx; cases hx
            have hf : s.info.topCap = .full := by
              rw [h.cache.topCap, capacity_full, h.shape.full hne]; exact Nat.le_refl _
            have hnc : s.info.bottomCap ≠ .empty := fun e => hne ((h.bottomCap_empty hcfg).1 e)
            have hge : ¬ z.amount - less < s.info.highestBottom := fun e => hc ⟨e, hf, hnc⟩
            have := le_highestAmount h.shape.botDesc x hx
            rw [← h.cache.highestBottom] at this
            dsimp only; omega⟩
        (Uniq.perm hent (h.uniq.adjust _ _))
        (by dsimp only; rw [sumAmt_perm (sortNoms_perm _), sum_adjust hu hd, h.cache.topTotal]; omega) h.cache.botTotal rfl rfl rfl rfl
        (by show s.info.count = _; rw [h.cache.count, hl]) rfl rfl h.cache.highestBottom h.cache.lowestBottom h.cache.bottomCap rfl rfl rfl
    exact ⟨this.1, this.2, rfl, rfl, hent⟩

theorem decreaseBottom_ok (h : CInv cfg c s) {d : Bond} (hd : d ∈ s.bottom.list) {less : Nat} (hless : less ≤ d.amount) :
    ∃ s' t, decreaseBottom cfg s d.owner less = .ok (s', t) ∧ CInv cfg c s' ∧ Frame c s s' ∧ s'.leak = s.leak + less ∧
      s'.kicked = s.kicked ∧ s'.entries.Perm (adjust s.entries d.owner (· - less)) := by
  have hu := h.uniqBottom
  have hsum := sum_without hu hd
  have htw : adjust s.top.list d.owner (· - less) = s.top.list := adjust_of_absent _ (fun x hx => h.disjoint hx hd)
  have hfull := h.shape.full (by intro e; rw [e] at hd; cases hd)
  unfold decreaseBottom
  rw [findOwner_mem hu hd]
  dsimp only
  refine ⟨_, _, rfl, ?_⟩
  have hl : (sortNoms (adjust s.bottom.list d.owner (· - less))).length = s.bottom.list.length := by
    rw [(sortNoms_perm _).length_eq, adjust_length]
  have hent : (s.top.list ++ sortNoms (adjust s.bottom.list d.owner (· - less))).Perm (adjust s.entries d.owner (· - less)) := by
    unfold Cand.entries; rw [adjust_append, htw]
    exact List.Perm.append_left _ (sortNoms_perm _)
  have := CInv.rebuildBottom (s' := { putBottom (resetBottom cfg s ⟨sortNoms (adjust s.bottom.list d.owner (· - less)), s.bottom.total⟩)
        ⟨sortNoms (adjust s.bottom.list d.owner (· - less)), s.bottom.total⟩ with leak := s.leak + less }) h
      (B := ⟨sortNoms (adjust s.bottom.list d.owner (· - less)), s.bottom.total⟩)
      ⟨h.shape.topDesc, sortNoms_desc _, h.shape.topLen, by rw [hl]; exact h.shape.botLen, fun _ => hfull, by
        intro x hx y hy
        obtain ⟨z, hz, (⟨_, rfl⟩ | ⟨hzo, rfl⟩)⟩ := adjust_mem ((sortNoms_perm _).mem_iff.1 hx)
        · exact h.shape.cross x hz y hy
        · have := h.shape.cross z hz y hy; dsimp only; omega⟩
      (Uniq.perm hent (h.uniq.adjust _ _))
      (by show s.bottom.total = sumAmt (sortNoms (adjust s.bottom.list d.owner (· - less))) + (s.leak + less)
          rw [sumAmt_perm (sortNoms_perm _), sum_adjust hu hd, h.cache.botTotal]; omega) rfl rfl rfl rfl
      (by show s.info.count = _; rw [h.cache.count, hl]) rfl rfl rfl rfl rfl rfl rfl rfl
  exact ⟨this.1, this.2, rfl, rfl, hent⟩

/-- `decrease_nomination` called with the recorded amount decreases exactly that nomination; in the bottom list the cached total
keeps the amount (`leak`). -/
theorem decreaseNomination_ok (hcfg : cfg.Ok) (h : CInv cfg c s) {d : Bond} (hd : d ∈ s.entries) {less : Nat} (hless : less ≤ d.amount) :
    ∃ s' t, decreaseNomination cfg c s d.owner d.amount less = .ok (s', t) ∧ CInv cfg c s' ∧ Frame c s s' ∧
      s'.leak = s.leak + (if d ∈ s.bottom.list then less else 0) ∧
      s'.kicked = s.kicked ∧ s'.entries.Perm (adjust s.entries d.owner (· - less)) := by
  unfold decreaseNomination
  rcases List.mem_append.1 hd with ht | hb
  · obtain ⟨s', t, e, r⟩ := decreaseTop_ok hcfg h ht hless
    have hge := top_ge_lowest h ht
    have hnb : ¬ d ∈ s.bottom.list := fun hb => h.disjoint ht hb rfl
    rw [if_neg hnb]
    refine ⟨s', t, ?_, r⟩
    by_cases h1 : s.info.lowestTop = s.info.highestBottom
    · rw [if_neg (by simp [h1]), if_pos ⟨hge, h1⟩, e]
    · rw [if_pos ⟨hge, h1⟩, e]
  · obtain ⟨s', t, e, r⟩ := decreaseBottom_ok h hb hless
    rw [if_pos hb]
    refine ⟨s', t, ?_, r⟩
    have hno : decreaseTop cfg c s d.owner d.amount less = .error .nominationDNE := by
      unfold decreaseTop; rw [findOwner_absent (fun x hx => h.disjoint hx hb)]
    by_cases hge : d.amount ≥ s.info.lowestTop
    · have heq := bottom_eq_of_ge hcfg h hb hge
      rw [if_neg (by simp [heq]), if_pos ⟨hge, heq⟩, hno]
      exact e
    · rw [if_neg (by omega), if_neg (by omega)]
      exact e

end

end Verif.Staking
