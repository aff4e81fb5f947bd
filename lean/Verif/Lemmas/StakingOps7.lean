import Verif.Lemmas.StakingOps6

/-! # Calls that spread an amount over collators -/

namespace Verif.Staking

variable {P : Par} {s s' t : St}

/-! ### The shares -/

theorem shares_length (per dust block n : Nat) : ∀ k index rem, (shares per dust block n k index rem).length = k := by
  intro k
  induction k with
  | zero => intro _ _; rfl
  | succ k ih => intro index rem; simp [shares, ih]

/-- While the dust is still to come, what remains is what the remaining collators get. -/
theorem shares_sum_dust {per dust block n : Nat} (hd : dust ≠ 0) : ∀ k index, index + k = n → index ≤ block % n → block % n < n →
    (shares per dust block n k index (per * k + dust)).sum = per * k + dust ∧
    ∀ (i x : Nat), (shares per dust block n k index (per * k + dust))[i]? = some x → x = if index + i = block % n then per + dust else per := by
  have after : ∀ k index, index + k = n → block % n < index →
      (shares per dust block n k index (per * k)).sum = per * k ∧
      ∀ (i x : Nat), (shares per dust block n k index (per * k))[i]? = some x → x = per := by
    intro k
    induction k with
    | zero => intro index _ _; simp [shares]
    | succ k ih =>
      intro index h1 h2
      have hs : shareOf per dust block n index (per * (k + 1)) = per := by
        unfold shareOf getsDust
        rw [if_neg hd, decide_eq_false (by omega)]
        simp only [Bool.false_eq_true, if_false]
        apply Nat.min_eq_right
        exact Nat.le_mul_of_pos_right _ (by omega)
      have he : per * (k + 1) - per = per * k := by rw [Nat.mul_succ]; omega
      obtain ⟨e1, e2⟩ := ih (index + 1) (by omega) (by omega)
      simp only [shares, hs, he, List.sum_cons, e1]
      refine ⟨by rw [Nat.mul_succ]; omega, ?_⟩
      intro i x hi
      cases i with
      | zero => simpa using hi.symm
      | succ i => exact e2 i x (by simpa using hi)
  intro k
  induction k with
  | zero => intro index h1 h2 h3; omega
  | succ k ih =>
    intro index h1 h2 h3
    by_cases he : index = block % n
    · have hs : shareOf per dust block n index (per * (k + 1) + dust) = per + dust := by
        unfold shareOf getsDust
        rw [if_neg hd, decide_eq_true he]
        simp only [if_true]
        apply Nat.min_eq_right
        have : per ≤ per * (k + 1) := Nat.le_mul_of_pos_right _ (by omega)
        omega
      have hr : per * (k + 1) + dust - (per + dust) = per * k := by rw [Nat.mul_succ]; omega
      obtain ⟨e1, e2⟩ := after k (index + 1) (by omega) (by omega)
      simp only [shares, hs, hr, List.sum_cons, e1]
      refine ⟨by rw [Nat.mul_succ]; omega, ?_⟩
      intro i x hi
      cases i with
      | zero => simp at hi; rw [if_pos (by omega)]; exact hi.symm
      | succ i => rw [if_neg (by omega)]; exact e2 i x (by simpa using hi)
    · have hs : shareOf per dust block n index (per * (k + 1) + dust) = per := by
        unfold shareOf getsDust
        rw [if_neg hd, decide_eq_false he]
        simp only [Bool.false_eq_true, if_false]
        apply Nat.min_eq_right
        have : per ≤ per * (k + 1) := Nat.le_mul_of_pos_right _ (by omega)
        omega
      have hr : per * (k + 1) + dust - per = per * k + dust := by rw [Nat.mul_succ]; omega
      obtain ⟨e1, e2⟩ := ih (index + 1) (by omega) (by omega) h3
      simp only [shares, hs, hr, List.sum_cons, e1]
      refine ⟨by rw [Nat.mul_succ]; omega, ?_⟩
      intro i x hi
      cases i with
      | zero => simp at hi; rw [if_neg (by omega)]; exact hi.symm
      | succ i =>
        have := e2 i x (by simpa using hi)
        rw [this]
        have hi' : index + 1 + i = index + (i + 1) := by omega
        rw [hi']

/-- Without dust everyone gets the quotient until nothing is left. -/
theorem shares_sum_nodust {per block n : Nat} : ∀ k index rem, (shares per 0 block n k index rem).sum = min rem (per * k) := by
  intro k
  induction k with
  | zero => intro index rem; simp [shares]
  | succ k ih =>
    intro index rem
    have hs : shareOf per 0 block n index rem = min rem per := by
      unfold shareOf getsDust; simp
    simp only [shares, hs, List.sum_cons, ih, Nat.mul_succ]
    omega

/-- The shares add up to the amount. -/
theorem shares_sum {per amount block n : Nat} (hn : 0 < n) :
    (shares per (amount - per * n) block n n 0 amount).sum = amount := by
  by_cases hd : amount - per * n = 0
  · rw [hd, shares_sum_nodust]; omega
  · have := (shares_sum_dust (per := per) (block := block) (n := n) hd n 0 (by omega) (Nat.zero_le _) (Nat.mod_lt _ hn)).1
    have he : per * n + (amount - per * n) = amount := by omega
    rw [he] at this; exact this

/-! ### Nominating several collators -/

/-- What a loop of nominations does. -/
structure SplitSpec (P : Par) (s s' : St) (n : Nat) (l : List (Nat × Nat)) : Prop where
  inv : GInv P s'
  same : SameP s s'
  kept : Kept s s'
  lock : s'.nlock n = s.nlock n + (l.map Prod.snd).sum
  own : ∀ c x, HasN s'.noms n c x ↔ (c, x) ∈ l ∨ HasN s.noms n c x
  fresh : ∀ c x, (c, x) ∈ l → ∀ y, ¬ HasN s.noms n c y
  distinct : (l.map Prod.fst).Nodup
  ownReqs : ∀ c (q : Req), q.nominator = n → (q ∈ s'.reqs c ↔ q ∈ s.reqs c)
  others : ∀ m c, m ≠ n → PairSame s s' m c ∨ ((∃ x, HasN s.noms m c x) ∧ PairGone s' m c ∧ ∃ x, (c, x) ∈ l)

theorem NominateSpec.own {n c a : Nat} (h : NominateSpec P s s' n c a) (d x : Nat) :
    HasN s'.noms n d x ↔ (d = c ∧ x = a) ∨ HasN s.noms n d x := by
  obtain ⟨k, h1, h2, _⟩ := h.ex
  rw [h2]
  constructor
  · rintro (⟨_, e⟩ | ⟨e, _⟩)
    · exact Or.inl e
    · exact Or.inr e
  · rintro (e | e)
    · exact Or.inl ⟨rfl, e⟩
    · exact Or.inr ⟨e, fun y hy e2 => (h1 y hy).2.1 e2.1.symm⟩

theorem NominateSpec.ownReqs {n c a : Nat} (h : NominateSpec P s s' n c a) (d : Nat) (q : Req) (hq : q.nominator = n) :
    q ∈ s'.reqs d ↔ q ∈ s.reqs d := by
  obtain ⟨k, h1, _, h2, _⟩ := h.ex
  rw [h2]
  exact ⟨fun e => e.1, fun e => ⟨e, fun y hy e2 => (h1 y hy).2.1 (e2.1.symm.trans hq)⟩⟩

theorem NominateSpec.others {n c a : Nat} (h : NominateSpec P s s' n c a) (m d : Nat) (hm : m ≠ n) :
    PairSame s s' m d ∨ ((∃ x, HasN s.noms m d x) ∧ PairGone s' m d ∧ d = c) := by
  obtain ⟨k, h1, h2, h3, _⟩ := h.ex
  by_cases hk : ∃ x ∈ k, m = x.owner ∧ d = c
  · obtain ⟨x, hx, e1, e2⟩ := hk
    refine Or.inr ⟨⟨x.amount, by rw [e1, e2]; exact (h1 x hx).1⟩, ⟨?_, ?_⟩, e2⟩
    · intro y hy
      rcases (h2 _ _ _).1 hy with ⟨e, _⟩ | ⟨_, e⟩
      · exact hm e
      · exact e x hx ⟨e1, e2⟩
    · intro q hq e
      exact ((h3 _ _).1 hq).2 x hx ⟨e.trans e1, e2⟩
  · left
    constructor
    · intro x
      rw [h2]
      constructor
      · rintro (⟨e, _⟩ | ⟨e, _⟩)
        · exact absurd e hm
        · exact e
      · intro e; exact Or.inr ⟨e, fun y hy e2 => hk ⟨y, hy, e2⟩⟩
    · intro q hq
      rw [h3]
      exact ⟨fun e => e.1, fun e => ⟨e, fun y hy e2 => hk ⟨y, hy, hq.symm.trans e2.1, e2.2⟩⟩⟩

theorem split_fold (hP : P.Ok) (hmax : 1 ≤ P.maxPer) (n : Nat) (l : List (Nat × Nat)) : ∀ s cnt res, GInv P s →
    l.foldl (splitStep P n) (some (s, cnt)) = some res → SplitSpec P s res.1 n l := by
  induction l with
  | nil =>
    intro s cnt res h ho
    injection ho with ho
    subst ho
    exact ⟨h, SameP.refl _, Kept.refl _, by simp, fun c x => by simp, fun c x hx => by simp at hx, List.nodup_nil, fun _ _ _ => Iff.rfl,
      fun m c _ => Or.inl (PairSame.refl ..)⟩
  | cons y l ih =>
    intro s cnt res h ho
    obtain ⟨c, a⟩ := y
    rw [List.foldl_cons] at ho
    cases hstep : splitStep P n (some (s, cnt)) (c, a) with
    | none => rw [hstep, foldl_none (fun _ => rfl)] at ho; cases ho
    | some z =>
    obtain ⟨s1, cnt1⟩ := z
    rw [hstep] at ho
    unfold splitStep at hstep
    dsimp only at hstep
    cases hc : s.cands c with
    | none => rw [hc] at hstep; cases hstep
    | some r =>
    rw [hc] at hstep
    dsimp only at hstep
    cases hn : nominate P s n c a r.info.count cnt with
    | none => rw [hn] at hstep; cases hstep
    | some s2 =>
    rw [hn] at hstep
    simp only [Option.map_some] at hstep
    injection hstep with hstep
    obtain ⟨rfl, _⟩ := Prod.mk.inj hstep
    have hN := nominate_ok hP hmax h hn
    have hr := ih s2 cnt1 res hN.inv ho
    have hnot : ∀ x, (c, x) ∉ l := by
      intro x hx
      exact hr.fresh c x hx a ((hN.own c a).2 (Or.inl ⟨rfl, rfl⟩))
    refine ⟨hr.inv, hN.sameP.trans hr.same, hN.kept.trans hr.kept, ?_, ?_, ?_, ?_, ?_, ?_⟩
    · rw [hr.lock, hN.lock]; simp; omega
    · intro d x
      rw [hr.own, hN.own, List.mem_cons, Prod.mk.injEq]
      constructor
      · rintro (e | e | e)
        · exact Or.inl (Or.inr e)
        · exact Or.inl (Or.inl e)
        · exact Or.inr e
      · rintro ((e | e) | e)
        · exact Or.inr (Or.inl e)
        · exact Or.inl e
        · exact Or.inr (Or.inr e)
    · intro d x hx y hy
      rcases List.mem_cons.1 hx with e | e
      · obtain ⟨rfl, rfl⟩ := Prod.mk.inj e
        exact hN.fresh y hy
      · exact hr.fresh d x e y ((hN.own d y).2 (Or.inr hy))
    · refine List.nodup_cons.2 ⟨?_, hr.distinct⟩
      intro hm
      obtain ⟨z, hz, e⟩ := List.mem_map.1 hm
      exact hnot z.2 (by have e : z.1 = c := e; rw [← e]; exact hz)
    · intro d q hq
      exact (hr.ownReqs d q hq).trans (hN.ownReqs d q hq)
    · intro m d hm
      rcases hN.others m d hm with g | ⟨g1, g2, g3⟩
      · rcases hr.others m d hm with k | ⟨k1, k2, x, k3⟩
        · exact Or.inl (g.trans k)
        · refine Or.inr ⟨?_, k2, x, List.mem_cons_of_mem _ k3⟩
          obtain ⟨y, hy⟩ := k1
          exact ⟨y, (g.1 y).1 hy⟩
      · rcases hr.others m d hm with k | ⟨k1, k2, x, k3⟩
        · exact Or.inr ⟨g1, PairSame.gone g2 k, a, by rw [g3]; exact List.mem_cons_self ..⟩
        · obtain ⟨y, hy⟩ := k1
          exact absurd hy (g2.1 y)

theorem splitAndNominate_ok (hP : P.Ok) (hmax : 1 ≤ P.maxPer) (h : GInv P s) {n : Nat} {ts : List Nat} {amount block : Nat}
    (ho : splitAndNominate P s n ts amount block = some s') :
    P.enabled = true ∧ s.minTotal * ts.length ≤ amount ∧ amount ≤ s.nomFree n ∧
    SplitSpec P s s' n (ts.zip (shares (perCollator ts.length amount) (amount - perCollator ts.length amount * ts.length) block
      ts.length ts.length 0 amount)) := by
  unfold splitAndNominate at ho
  by_cases h1 : P.enabled = false
  · rw [if_pos h1] at ho; cases ho
  rw [if_neg h1] at ho
  by_cases h2 : amount < s.minTotal * ts.length
  · rw [if_pos h2] at ho; cases ho
  rw [if_neg h2] at ho
  by_cases h3 : s.nomFree n < amount
  · rw [if_pos h3] at ho; cases ho
  rw [if_neg h3] at ho
  dsimp only at ho
  cases hf : (ts.zip (shares (perCollator ts.length amount) (amount - perCollator ts.length amount * ts.length) block
      ts.length ts.length 0 amount)).foldl (splitStep P n) (some (s, ((s.noms n).map (fun r => r.noms.length)).getD 0)) with
  | none => rw [hf] at ho; cases ho
  | some res =>
    rw [hf] at ho
    simp only [Option.map_some] at ho
    injection ho with ho
    subst ho
    exact ⟨by simpa using h1, by omega, by omega, split_fold hP hmax n _ s _ res h hf⟩

/-! ### Bonding more with several collators -/

/-- What a loop of `bond_extra` does. -/
structure ExtraSpec (P : Par) (s s' : St) (n : Nat) (l : List (Nat × Nat)) : Prop where
  inv : GInv P s'
  same : SameP s s'
  kept : Kept s s'
  reqs : s'.reqs = s.reqs
  lock : s'.nlock n = s.nlock n + (l.map Prod.snd).sum
  others : ∀ m c x, ¬ (m = n ∧ c ∈ l.map Prod.fst) → (HasN s'.noms m c x ↔ HasN s.noms m c x)
  own : ∀ c k, (c, k) ∈ l → ∃ a, HasN s.noms n c a ∧ ∀ x, HasN s'.noms n c x ↔ x = a + k
  noRevoke : ∀ c k, (c, k) ∈ l → ∀ q ∈ s.reqs c, q.nominator = n → q.revoke = false

theorem bondExtra_fold (hP : P.Ok) (n : Nat) (l : List (Nat × Nat)) : ∀ s, (l.map Prod.fst).Nodup → GInv P s →
    l.foldl (bondExtraStep P n) (some s) = some s' → ExtraSpec P s s' n l := by
  induction l with
  | nil =>
    intro s _ h ho
    injection ho with ho
    subst ho
    exact ⟨h, SameP.refl _, Kept.refl _, rfl, by simp, fun _ _ _ _ => Iff.rfl, fun _ _ h => by simp at h, fun _ _ h => by simp at h⟩
  | cons y l ih =>
    intro s hnd h ho
    obtain ⟨c, a⟩ := y
    obtain ⟨hd1, hd2⟩ := List.nodup_cons.1 hnd
    rw [List.foldl_cons] at ho
    cases hstep : bondExtraStep P n (some s) (c, a) with
    | none => rw [hstep, foldl_none (fun _ => rfl)] at ho; cases ho
    | some s1 =>
    rw [hstep] at ho
    have hB := bondExtra_ok hP h (n := n) (c := c) (more := a) (s' := s1) hstep
    have hr := ih s1 hd2 hB.inv ho
    obtain ⟨b, hb1, hb2⟩ := hB.bond
    have hnot : ∀ d k, (d, k) ∈ l → d ≠ c := by
      intro d k hk e
      exact hd1 (List.mem_map.2 ⟨_, hk, e⟩)
    refine ⟨hr.inv, hB.same.trans hr.same, hB.kept.trans hr.kept, hr.reqs.trans hB.reqs, ?_, ?_, ?_, ?_⟩
    · rw [hr.lock, hB.lock]; simp; omega
    · intro m d x hne
      rw [hr.others m d x (fun e => hne ⟨e.1, List.mem_cons_of_mem _ e.2⟩), hb2]
      have hne2 : ¬ (m = n ∧ d = c) := fun e => hne ⟨e.1, by rw [e.2]; exact List.mem_cons_self ..⟩
      constructor
      · rintro (⟨e1, e2, _⟩ | ⟨e, _⟩)
        · exact absurd ⟨e1, e2⟩ hne2
        · exact e
      · intro e; exact Or.inr ⟨e, hne2⟩
    · intro d k hk
      rcases List.mem_cons.1 hk with e | e
      · obtain ⟨rfl, rfl⟩ := Prod.mk.inj e
        refine ⟨b, hb1, ?_⟩
        intro x
        rw [hr.others n d x (fun e => hd1 e.2), hb2]
        constructor
        · rintro (⟨_, _, e⟩ | ⟨_, e⟩)
          · exact e
          · exact absurd ⟨rfl, rfl⟩ e
        · intro e; exact Or.inl ⟨rfl, rfl, e⟩
      · obtain ⟨b', g1, g2⟩ := hr.own d k e
        refine ⟨b', ?_, g2⟩
        rcases (hb2 _ _ _).1 g1 with ⟨_, e2, _⟩ | ⟨e2, _⟩
        · exact absurd e2 (hnot d k e)
        · exact e2
    · intro d k hk q hq hqn
      rcases List.mem_cons.1 hk with e | e
      · obtain ⟨rfl, rfl⟩ := Prod.mk.inj e
        have := hB.noRevoke
        unfold revokePending at this
        have := List.any_eq_false.1 this q hq
        simp only [Req.by, hqn, decide_true, Bool.true_and] at this
        simpa using this
      · exact hr.noRevoke d k e q (by rw [hB.reqs]; exact hq) hqn

theorem bondExtraAll_ok (hP : P.Ok) (h : GInv P s) {n amount block : Nat} (ho : bondExtraAll P s n amount block = some s') :
    ∃ r, s.noms n = some r ∧ P.enabled = true ∧ amount ≤ s.nomFree n ∧ P.minPer ≤ perCollator r.noms.length amount ∧
    ExtraSpec P s s' n ((r.noms.map Bond.owner).zip (shares (perCollator r.noms.length amount)
      (amount - perCollator r.noms.length amount * r.noms.length) block r.noms.length r.noms.length 0 amount)) := by
  unfold bondExtraAll at ho
  by_cases h1 : P.enabled = false
  · rw [if_pos h1] at ho; cases ho
  rw [if_neg h1] at ho
  by_cases h3 : s.nomFree n < amount
  · rw [if_pos h3] at ho; cases ho
  rw [if_neg h3] at ho
  cases hr : s.noms n with
  | none => rw [hr] at ho; cases ho
  | some r =>
  rw [hr] at ho
  dsimp only at ho
  by_cases h4 : perCollator r.noms.length amount < P.minPer
  · rw [if_pos h4] at ho; cases ho
  rw [if_neg h4] at ho
  refine ⟨r, rfl, by simpa using h1, by omega, by omega, bondExtra_fold hP n _ s ?_ h ho⟩
  rw [List.map_fst_zip]
  · exact (h.n.some n r hr).sorted.uniq
  · rw [shares_length, List.length_map]; exact Nat.le_refl _

/-! ### Unbonding from several collators -/

/-- What a loop that schedules decreases does: `l` are the collators and amounts. -/
structure DecSpec (P : Par) (s s' : St) (n : Nat) (l : List (Nat × Nat)) : Prop where
  only : ReqOnly P s s' n
  out : ∀ c, c ∉ l.map Prod.fst → s'.reqs c = s.reqs c
  own : ∀ c k, (c, k) ∈ l → (∀ q ∈ s.reqs c, q.nominator ≠ n) ∧ (∃ a, HasN s.noms n c a ∧ k + P.minPer ≤ a) ∧
    s'.reqs c = (if (s.reqs c).length < P.maxPer then s.reqs c ++ [⟨n, false, k, s.era + s.delay⟩] else s.reqs c)
  distinct : (∀ c, (s.reqs c).length < P.maxPer) → (l.map Prod.fst).Nodup

/-- The amounts scheduled by the loop. -/
def unbondAmounts : List Payer → Nat → List (Nat × Nat)
  | [], _ => []
  | p :: l, out => (p.owner, p.reserved + min p.free out) :: unbondAmounts l (out - min p.free out)

theorem unbond_fold (n : Nat) (l : List Payer) : ∀ s out res, GInv P s → (l.map Payer.owner).Nodup →
    l.foldl (unbondStep P n) (some (s, out)) = some res →
    DecSpec P s res.1 n (unbondAmounts l out) ∧ ((unbondAmounts l out).map Prod.snd).sum + res.2 = (l.map Payer.reserved).sum + out := by
  induction l with
  | nil =>
    intro s out res h _ ho
    injection ho with ho
    subst ho
    exact ⟨⟨⟨h, SameC.refl _, rfl, fun _ _ _ => Iff.rfl, fun _ _ _ => Iff.rfl⟩, fun _ _ => rfl, fun _ _ h => by simp [unbondAmounts] at h,
      fun _ => List.nodup_nil⟩, by simp [unbondAmounts]⟩
  | cons p l ih =>
    intro s out res h hnd ho
    obtain ⟨hd1, hd2⟩ := List.nodup_cons.1 hnd
    rw [List.foldl_cons] at ho
    cases hstep : unbondStep P n (some (s, out)) p with
    | none => rw [hstep, foldl_none (fun _ => rfl)] at ho; cases ho
    | some z =>
    rw [hstep] at ho
    unfold unbondStep at hstep
    dsimp only at hstep
    cases hn : scheduleDecrease P s n p.owner (p.reserved + min p.free out) with
    | none => rw [hn] at hstep; cases hstep
    | some s1 =>
    rw [hn] at hstep
    simp only [Option.map_some] at hstep
    injection hstep with hstep
    subst hstep
    obtain ⟨a, ha1, _, ha2, hs⟩ := scheduleDecrease_ok h hn
    obtain ⟨hr, hsum⟩ := ih s1 _ res hs.inv hd2 ho
    have howners : ∀ (l : List Payer) out, (unbondAmounts l out).map Prod.fst = l.map Payer.owner := by
      intro l
      induction l with
      | nil => intro _; rfl
      | cons p l ih => intro out; simp [unbondAmounts, ih]
    have hothers : ∀ c, c ≠ p.owner → s1.reqs c = s.reqs c := by
      intro c hc; rw [hs.reqs, upd_ne _ _ hc]
    refine ⟨⟨⟨hr.only.inv, hs.same.trans hr.only.same, hr.only.locks.trans hs.locks, fun m d x => (hr.only.bonds m d x).trans (hs.bonds m d x), ?_⟩, ?_, ?_, ?_⟩, ?_⟩
    · intro c q hq
      rw [hr.only.others c q hq, hs.reqs]
      by_cases e : c = p.owner
      · subst e
        rw [upd_same]
        by_cases hl : (s.reqs p.owner).length < P.maxPer
        · rw [if_pos hl, List.mem_append, List.mem_singleton]
          constructor
          · rintro (e | e)
            · exact e
            · subst e; exact absurd rfl hq
          · exact Or.inl
        · rw [if_neg hl]
      · rw [upd_ne _ _ e]
    · intro c hc
      have hc1 : c ≠ p.owner := fun e => hc (by rw [e]; simp [unbondAmounts])
      rw [hr.out c (fun e => hc (by simp only [unbondAmounts, List.map_cons]; exact List.mem_cons_of_mem _ e)), hothers c hc1]
    · intro c k hk
      simp only [unbondAmounts] at hk
      rcases List.mem_cons.1 hk with e | e
      · obtain ⟨rfl, rfl⟩ := Prod.mk.inj e
        refine ⟨hs.isNew, ⟨a, ha1, ha2⟩, ?_⟩
        rw [hr.out p.owner (by rw [howners]; exact hd1), hs.reqs, upd_same]
      · have hc1 : c ≠ p.owner := by
          intro e2
          apply hd1
          rw [← howners l (out - min p.free out), ← e2]
          exact List.mem_map.2 ⟨_, e, rfl⟩
        obtain ⟨g1, ⟨a', g2, g3⟩, g4⟩ := hr.own c k e
        rw [hothers c hc1] at g1 g4
        rw [hs.same.era, hs.same.delay] at g4
        exact ⟨g1, ⟨a', (hs.bonds _ _ _).1 g2, g3⟩, g4⟩
    · intro _
      rw [howners]; exact hnd
    · simp only [unbondAmounts, List.map_cons, List.sum_cons]
      have : min p.free out ≤ out := Nat.min_le_right _ _
      omega

theorem payersLoop_spec (minPer target : Nat) (l : List Bond) : ∀ out,
    ((payersLoop minPer target l out).1.map Payer.reserved).sum + (payersLoop minPer target l out).2 = out ∧
    ((payersLoop minPer target l out).1.map Payer.owner).Sublist (l.map Bond.owner) := by
  induction l with
  | nil => intro out; simp [payersLoop]
  | cons b l ih =>
    intro out
    unfold payersLoop
    dsimp only
    have hw : min out (b.amount - target) ≤ out := Nat.min_le_left _ _
    by_cases h1 : b.amount ≥ min out (b.amount - target)
    · rw [if_pos h1]
      by_cases h2 : out - min out (b.amount - target) = 0
      · rw [if_pos h2]
        simp only [List.map_cons, List.map_nil, List.sum_cons, List.sum_nil]
        refine ⟨by omega, ?_⟩
        exact List.Sublist.cons_cons _ (List.nil_sublist _)
      · rw [if_neg h2]
        obtain ⟨e1, e2⟩ := ih (out - min out (b.amount - target))
        simp only [List.map_cons, List.sum_cons]
        refine ⟨by omega, List.Sublist.cons_cons _ e2⟩
    · rw [if_neg h1]
      by_cases h2 : out = 0
      · rw [if_pos h2]; subst h2; exact ⟨rfl, List.nil_sublist _⟩
      · rw [if_neg h2]
        obtain ⟨e1, e2⟩ := ih out
        exact ⟨e1, List.Sublist.cons _ e2⟩

theorem scheduleUnbondAll_ok (h : GInv P s) {n less : Nat} (ho : scheduleUnbondAll P s n less = some s') :
    ∃ l, DecSpec P s s' n l ∧ (l.map Prod.snd).sum = less ∧ (l.map Prod.fst).Nodup ∧
      ∃ r, s.noms n = some r ∧ s.minTotal + less ≤ r.total - r.less := by
  unfold scheduleUnbondAll at ho
  unfold identifyPayers at ho
  cases hr : s.noms n with
  | none => rw [hr] at ho; cases ho
  | some r =>
  rw [hr] at ho
  dsimp only at ho
  by_cases h1 : r.total - r.less < s.minTotal + less
  · rw [if_pos h1] at ho; cases ho
  rw [if_neg h1] at ho
  by_cases h2 : perCollator r.noms.length (r.total - r.less - less) < P.minPer
  · rw [if_pos h2] at ho; cases ho
  rw [if_neg h2] at ho
  obtain ⟨p1, p2⟩ := payersLoop_spec P.minPer (perCollator r.noms.length (r.total - r.less - less)) r.noms less
  generalize hpl : payersLoop P.minPer (perCollator r.noms.length (r.total - r.less - less)) r.noms less = pl at *
  obtain ⟨payers, out⟩ := pl
  dsimp only at ho p1 p2
  have hnd : (payers.map Payer.owner).Nodup := (h.n.some n r hr).sorted.uniq.sublist p2
  cases hf : payers.foldl (unbondStep P n) (some (s, out)) with
  | none => rw [hf] at ho; cases ho
  | some res =>
  obtain ⟨s1, out'⟩ := res
  rw [hf] at ho
  dsimp only at ho
  by_cases h3 : out' = 0
  · rw [if_pos h3] at ho
    injection ho with ho
    subst ho
    obtain ⟨g1, g2⟩ := unbond_fold n payers s out _ h hnd hf
    dsimp only at g2
    refine ⟨_, g1, by omega, ?_, r, rfl, by omega⟩
    have howners : ∀ (l : List Payer) out, (unbondAmounts l out).map Prod.fst = l.map Payer.owner := by
      intro l
      induction l with
      | nil => intro _; rfl
      | cons p l ih => intro out; simp [unbondAmounts, ih]
    rw [howners]; exact hnd
  · rw [if_neg h3] at ho; cases ho

end Verif.Staking
