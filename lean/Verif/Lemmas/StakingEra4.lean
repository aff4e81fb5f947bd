import Verif.Lemmas.StakingEra3

/-! # Era payouts: snapshots add up, everybody is paid once, and the sum is bounded -/

namespace Verif.Staking

variable {E : EPar} {F F' : Full} {pub : Nat → Option Nat} {P : Par} {s s' : St}

/-! ### Snapshots -/

/-- A snapshot of collator `c` adds up, and nobody occurs in it twice. -/
structure SnapOk (c : Nat) (sn : Snap) : Prop where
  total : sn.bond + sumAmt sn.noms = sn.total
  once : (c :: sn.noms.map Bond.owner).Nodup

theorem lastReq_mem {l : List Req} {n : Nat} {q : Req} (h : lastReq l n = some q) : q ∈ l ∧ q.nominator = n := by
  unfold lastReq at h
  refine ⟨List.mem_reverse.1 (List.mem_of_find?_eq_some h), ?_⟩
  have := List.find?_some h
  simpa [Req.by] using this

theorem rewardable_owner (l : List Req) (b : Bond) : (rewardable l b).1.owner = b.owner := by
  unfold rewardable
  cases lastReq l b.owner with
  | none => rfl
  | some q =>
    dsimp only
    by_cases h : q.revoke = true
    · rw [if_pos h]
    · rw [if_neg h]

/-- What counts and what does not count are the nomination. -/
theorem rewardable_sum (h : Inv P s) {c : Nat} {r : CRec} (hr : s.cands c = some r) {b : Bond} (hb : b ∈ r.top.list) :
    (rewardable (s.reqs c) b).1.amount + (rewardable (s.reqs c) b).2 = b.amount := by
  unfold rewardable
  cases hq : lastReq (s.reqs c) b.owner with
  | none => rfl
  | some q =>
    dsimp only
    by_cases hv : q.revoke = true
    · rw [if_pos hv]; exact Nat.zero_add _
    · rw [if_neg hv]
      obtain ⟨h1, h2⟩ := lastReq_mem hq
      obtain ⟨r', b', k1, k2, k3, _, k5⟩ := h.g.n.req c q h1
      have hN : HasN s.noms b.owner c b.amount := (h.g.link _ _ _).1 ⟨r, hr, List.mem_append_left _ hb⟩
      have hN' : HasN s.noms b.owner c b'.amount := ⟨r', by rw [← h2]; exact k1, by rw [← k3]; exact k2⟩
      have := HasN.functional h.g.n hN hN'
      have := k5 (by simpa using hv)
      show b.amount - q.amount + q.amount = b.amount
      omega

theorem sum_split (l : List Bond) (f : Bond → Bond × Nat) (h : ∀ b ∈ l, (f b).1.amount + (f b).2 = b.amount) :
    sumAmt (l.map (fun b => (f b).1)) + (l.map (fun b => (f b).2)).sum = sumAmt l := by
  unfold sumAmt
  induction l with
  | nil => rfl
  | cons b l ih =>
    have h1 := h b (List.mem_cons_self ..)
    have h2 := ih (fun x hx => h x (List.mem_cons_of_mem _ hx))
    simp only [List.map_cons, List.sum_cons] at h2 ⊢
    omega

theorem snapshot_ok (h : Inv P s) {c : Nat} {r : CRec} (hr : s.cands c = some r) : SnapOk c (snapshot s c r) := by
  have hi := h.g.c.inv c r hr
  constructor
  · have h1 := sum_split r.top.list (rewardable (s.reqs c)) (fun b hb => rewardable_sum h hr hb)
    have h2 := hi.cache.counted
    have h2 : r.info.totalCounted = r.info.bond + sumAmt r.top.list := h2
    show r.info.bond + sumAmt (r.top.list.map (fun b => (rewardable (s.reqs c) b).1)) = r.info.totalCounted - (r.top.list.map (fun b => (rewardable (s.reqs c) b).2)).sum
    omega
  · have e : (snapshot s c r).noms.map Bond.owner = r.top.list.map Bond.owner := by
      show (r.top.list.map (fun b => (rewardable (s.reqs c) b).1)).map Bond.owner = _
      rw [List.map_map]
      exact List.map_congr_left (fun b _ => rewardable_owner _ b)
    rw [e, List.nodup_cons]
    constructor
    · intro hc
      obtain ⟨b, hb, hbc⟩ := List.mem_map.1 hc
      have hN : HasN s.noms b.owner c b.amount := (h.g.link _ _ _).1 ⟨r, hr, List.mem_append_left _ hb⟩
      obtain ⟨r', e', _⟩ := hN
      rw [hbc] at e'
      have := h.g.excl c (by rw [e']; rfl)
      rw [hr] at this
      cases this
    · have hu : ((r.top.list ++ r.bottom.list).map Bond.owner).Nodup := hi.uniq
      rw [List.map_append] at hu
      exact (List.nodup_append.1 hu).1

/-! ### The log of payments -/

/-- The payments of an era. -/
def paidOf (F : Full) (e : Nat) : List Payment := F.paid.filter (fun p => decide (p.era = e))

/-- Their sum. -/
def paidSum (F : Full) (e : Nat) : Nat := ((paidOf F e).map Payment.amount).sum

/-- The collators of an era whose turn has come. -/
def servedOf (F : Full) (e : Nat) : List (Nat × Nat) := F.served.filter (fun x => decide (x.1 = e))

theorem paidOf_append (F F' : Full) (e : Nat) (p : Payment) (h : F'.paid = F.paid ++ [p]) :
    paidOf F' e = paidOf F e ++ if p.era = e then [p] else [] := by
  unfold paidOf
  rw [h, List.filter_append]
  by_cases he : p.era = e
  · rw [if_pos he]; simp [he]
  · rw [if_neg he]; simp [he]

/-- One payment: not made, or made and logged. -/
theorem payReward_paid (E : EPar) (e c : Nat) (F : Full) (x : Nat × Nat) :
    (payReward E e c F x).paid = F.paid ∨ (payReward E e c F x).paid = F.paid ++ [⟨e, c, x.1, x.2⟩] := by
  unfold payReward
  by_cases h1 : x.2 = 0 ∨ x.1 = E.pot
  · rw [if_pos h1]; exact Or.inr rfl
  rw [if_neg h1]
  by_cases h2 : F.led.free E.pot < x.2 + E.ed ∨ F.led.free x.1 + x.2 < E.ed
  · rw [if_pos h2]; exact Or.inl rfl
  rw [if_neg h2]
  exact Or.inr rfl

/-- The log of a list of payments: some of them, in order. -/
theorem payRewards_paid (E : EPar) (e c : Nat) (l : List (Nat × Nat)) (F : Full) :
    ∃ m : List (Nat × Nat), m.Sublist l ∧ (l.foldl (payReward E e c) F).paid = F.paid ++ m.map (fun x => ⟨e, c, x.1, x.2⟩) := by
  induction l generalizing F with
  | nil => exact ⟨[], List.Sublist.refl _, by simp⟩
  | cons x l ih =>
    obtain ⟨m, h1, h2⟩ := ih (payReward E e c F x)
    rcases payReward_paid E e c F x with h | h
    · exact ⟨m, h1.cons x, by rw [List.foldl_cons, h2, h]⟩
    · refine ⟨x :: m, h1.cons_cons x, ?_⟩
      rw [List.foldl_cons, h2, h, List.map_cons, List.append_assoc]
      rfl

/-- The shares a collator's reward is split by. -/
def weights (c : Nat) (reward : Nat) (sn : Snap) : List (Nat × Nat) :=
  (c, ratio sn.bond sn.total) ::
    (sn.noms.map (fun b => (b.owner, ratio b.amount sn.total))).filter (fun x => decide (perbillMul x.2 reward ≠ 0))

theorem rewardsOf_eq (c reward : Nat) (sn : Snap) :
    rewardsOf c reward sn = (weights c reward sn).map (fun w => (w.1, perbillMul w.2 reward)) := by
  unfold rewardsOf weights
  rw [List.map_cons, ]
  congr 1
  induction sn.noms with
  | nil => rfl
  | cons b l ih =>
    simp only [List.map_cons, List.filter_cons]
    by_cases h : perbillMul (ratio b.amount sn.total) reward = 0
    · simp only [h, ne_eq, not_true_eq_false, decide_false]
      exact ih
    · simp only [h, ne_eq, not_false_eq_true, decide_true, if_true, List.map_cons]
      rw [ih]

theorem sublist_sum {a b : List (Nat × Nat)} (h : a.Sublist b) : valSum a ≤ valSum b := by
  unfold valSum
  induction h with
  | slnil => exact Nat.le_refl _
  | cons x _ ih => rw [List.map_cons, List.sum_cons]; omega
  | cons_cons x _ ih => rw [List.map_cons, List.map_cons, List.sum_cons, List.sum_cons]; omega

/-- The shares add up to at most one. -/
theorem weights_sum {c reward : Nat} {sn : Snap} (h : (SnapOk c sn ∧ 0 < sn.bond) ∨ sn = Snap.zero) : valSum (weights c reward sn) ≤ billion := by
  rcases h with ⟨h, h0⟩ | h
  · have h1 : valSum (weights c reward sn) ≤
        valSum ((c, ratio sn.bond sn.total) :: sn.noms.map (fun b => (b.owner, ratio b.amount sn.total))) := by
      refine sublist_sum ?_
      exact List.filter_sublist.cons_cons _
    refine Nat.le_trans h1 ?_
    have h2 := sum_ratio_le (sn.bond :: sn.noms.map Bond.amount) sn.total (by have := h.total; omega)
      (by rw [List.sum_cons]; exact Nat.le_of_eq h.total)
    have e : valSum ((c, ratio sn.bond sn.total) :: sn.noms.map (fun b => (b.owner, ratio b.amount sn.total))) =
        ((sn.bond :: sn.noms.map Bond.amount).map (fun p => ratio p sn.total)).sum := by
      unfold valSum
      simp only [List.map_cons, List.map_map]
      rfl
    rw [e]
    exact h2
  · subst h
    unfold weights valSum Snap.zero
    simp only [List.map_nil, List.filter_nil, List.map_cons, List.sum_cons, List.sum_nil, Nat.add_zero]
    exact ratio_le 0 0

/-! ### Who is paid when -/

/-- The invariant of awards and payments. -/
structure Pay (E : EPar) (F : Full) : Prop where
  nodup : ∀ e, ((F.awarded e).map Prod.fst).Nodup
  pts : ∀ e, F.led.era < e + E.payDelay → valSum (F.awarded e) = F.points e
  del : ∀ e, F.led.era < e + E.payDelay → F.delayed e = none
  late : ∀ x ∈ F.served, x.1 + E.payDelay ≤ F.led.era
  out : ∀ x ∈ F.served, x.2 ∉ (F.awarded x.1).map Prod.fst
  once : F.served.Nodup
  logged : ∀ p ∈ F.paid, (p.era, p.collator) ∈ F.served
  snap : ∀ e, ∀ x ∈ F.atStake e, SnapOk x.1 x.2
  payees : (F.paid.map (fun p => (p.era, p.collator, p.payee))).Nodup
  live : ∀ e total, F.delayed e = some total → F.points e ≠ 0 ∧ total = F.aside e

/-- The share of the points still to be paid. -/
def remaining (F : Full) (e : Nat) : Nat := ((F.awarded e).map (fun x => ratio x.2 (F.points e))).sum

/-- The invariant of the sums. -/
structure Sums (F : Full) : Prop where
  bond : ∀ c r, F.led.cands c = some r → 0 < r.info.bond
  min : 1 ≤ F.led.minCollator
  snap : ∀ e, ∀ x ∈ F.atStake e, 0 < x.2.bond
  now : ∀ e total, F.delayed e = some total → total = F.aside e ∧
    2 * (billion * paidSum F e) + 2 * (remaining F e * total) ≤
      2 * (billion * total) + billion * ((paidOf F e).length + (servedOf F e).length)
  all : ∀ e, 2 * paidSum F e ≤ 2 * F.aside e + (paidOf F e).length + (servedOf F e).length

/-- The fields the invariants are about. -/
structure PaySame (F F' : Full) : Prop where
  era : F'.led.era = F.led.era
  cands : F'.led.cands = F.led.cands
  minCollator : F'.led.minCollator = F.led.minCollator
  atStake : F'.atStake = F.atStake
  points : F'.points = F.points
  awarded : F'.awarded = F.awarded
  delayed : F'.delayed = F.delayed
  aside : F'.aside = F.aside
  paid : F'.paid = F.paid
  served : F'.served = F.served

theorem Pay.same (h : PaySame F F') (p : Pay E F) : Pay E F' := by
  refine ⟨?_, ?_, ?_, ?_, ?_, ?_, ?_, ?_, ?_, ?_⟩
  · rw [h.awarded]; exact p.nodup
  · rw [h.era, h.awarded, h.points]; exact p.pts
  · rw [h.era, h.delayed]; exact p.del
  · rw [h.era, h.served]; exact p.late
  · rw [h.served, h.awarded]; exact p.out
  · rw [h.served]; exact p.once
  · rw [h.paid, h.served]; exact p.logged
  · rw [h.atStake]; exact p.snap
  · rw [h.paid]; exact p.payees
  · rw [h.delayed, h.points, h.aside]; exact p.live

theorem Sums.same (h : PaySame F F') (p : Sums F) : Sums F' := by
  refine ⟨?_, ?_, ?_, ?_, ?_⟩
  · rw [h.cands]; exact p.bond
  · rw [h.minCollator]; exact p.min
  · rw [h.atStake]; exact p.snap
  · unfold paidSum paidOf servedOf remaining; rw [h.delayed, h.aside, h.paid, h.served, h.awarded, h.points]; exact p.now
  · unfold paidSum paidOf servedOf; rw [h.aside, h.paid, h.served]; exact p.all

/-! Authors. -/

theorem Pay.note (hd : 1 ≤ E.payDelay) (p : Pay E F) (a : Nat) : Pay E (noteAuthor F a) := by
  refine ⟨?_, ?_, p.del, p.late, ?_, p.once, p.logged, p.snap, p.payees, ?_⟩
  · intro e
    show ((upd F.awarded F.led.era _ e).map Prod.fst).Nodup
    by_cases h : e = F.led.era
    · subst h; rw [upd_same]; exact alPut_nodup (p.nodup _)
    · rw [upd_ne _ _ h]; exact p.nodup e
  · intro e he
    show valSum (upd F.awarded F.led.era _ e) = upd F.points F.led.era _ e
    by_cases h : e = F.led.era
    · subst h
      rw [upd_same, upd_same]
      have := valSum_addScore (p.nodup F.led.era) (a, 20)
      unfold addScore at this
      rw [this, p.pts F.led.era he]
    · rw [upd_ne _ _ h, upd_ne _ _ h]; exact p.pts e he
  · intro x hx
    have h1 := p.late x hx
    show x.2 ∉ (upd F.awarded F.led.era _ x.1).map Prod.fst
    rw [upd_ne _ _ (by omega)]
    exact p.out x hx
  · intro e total he
    have := p.live e total he
    refine ⟨?_, this.2⟩
    show upd F.points F.led.era _ e ≠ 0
    by_cases h : e = F.led.era
    · subst h; rw [upd_same]; omega
    · rw [upd_ne _ _ h]; exact this.1

theorem Sums.note (hd : 1 ≤ E.payDelay) (p : Pay E F) (g : Sums F) (a : Nat) : Sums (noteAuthor F a) := by
  refine ⟨g.bond, g.min, g.snap, ?_, g.all⟩
  intro e total hdl
  have hdl : F.delayed e = some total := hdl
  have hne : e ≠ F.led.era := by
    rintro rfl
    rw [p.del F.led.era (by omega)] at hdl
    cases hdl
  have h1 := g.now e total hdl
  have e1 : remaining (noteAuthor F a) e = remaining F e := by
    show ((upd F.awarded F.led.era _ e).map (fun x => ratio x.2 (upd F.points F.led.era _ e))).sum = _
    rw [upd_ne _ _ hne, upd_ne _ _ hne]
    rfl
  rw [e1]
  exact h1

/-! A new era. -/

theorem SelSpec.snaps {e : Nat} (hi : Inv P F.led) (h : SelSpec F F' e) (Q : Nat → Snap → Prop)
    (hq : ∀ c r, F.led.cands c = some r → Q c (snapshot F.led c r)) (hF : ∀ d, ∀ x ∈ F.atStake d, Q x.1 x.2) :
    ∀ d, ∀ x ∈ F'.atStake d, Q x.1 x.2 := by
  intro d x hx
  cases h with
  | kept _ k =>
    subst k
    have hx : x ∈ upd F.atStake e _ d := hx
    by_cases hd : d = e
    · subst hd
      rw [upd_same] at hx
      rcases foldPut_mem _ _ _ hx with hx | hx
      · exact hF _ x hx
      · exact hF _ x hx
    · rw [upd_ne _ _ hd] at hx; exact hF d x hx
  | chosen _ l k _ _ hsn =>
    subst k
    have hx : x ∈ upd F.atStake e l d := hx
    by_cases hd : d = e
    · subst hd
      rw [upd_same] at hx
      rcases hsn x hx with hx | ⟨r, h1, h2⟩
      · exact hF _ x hx
      · rw [h2]; exact hq x.1 r h1
    · rw [upd_ne _ _ hd] at hx; exact hF d x hx

/-- The payments of an era that is not late are none. -/
theorem Pay.notPaid (p : Pay E F) {e : Nat} (he : F.led.era < e + E.payDelay) : paidOf F e = [] ∧ servedOf F e = [] := by
  have hs : servedOf F e = [] := by
    unfold servedOf
    rw [List.filter_eq_nil_iff]
    intro x hx hh
    have h1 := p.late x hx
    have h2 : x.1 = e := of_decide_eq_true hh
    omega
  refine ⟨?_, hs⟩
  unfold paidOf
  rw [List.filter_eq_nil_iff]
  intro x hx hh
  have h2 : x.era = e := of_decide_eq_true hh
  have h1 := p.late _ (p.logged x hx)
  dsimp only at h1
  omega

theorem prep_pay {now : Nat} (he : now = F.led.era + 1) (h : PrepSpec E F F' now) (p : Pay E F) :
    (∀ e, ((F'.awarded e).map Prod.fst).Nodup) ∧ (∀ e, now < e + E.payDelay → valSum (F'.awarded e) = F'.points e) ∧
    (∀ e, now < e + E.payDelay → F'.delayed e = none) ∧ (∀ e total, F'.delayed e = some total → F'.points e ≠ 0 ∧ total = F'.aside e) := by
  have hf := h.frame
  refine ⟨?_, ?_, ?_, ?_⟩
  · rw [hf.awarded]; exact p.nodup
  · rw [hf.awarded, hf.points]; intro e h; exact p.pts e (by omega)
  · intro e hlt
    cases h with
    | idle k => rw [k]; exact p.del e (by omega)
    | set _ _ _ _ hd => rw [hd, upd_ne _ _ (by omega)]; exact p.del e (by omega)
  · intro e total ht
    rw [hf.points]
    cases h with
    | idle k => rw [k] at ht ⊢; exact p.live e total ht
    | set _ h0 _ _ hd ha =>
      rw [hd] at ht
      rw [ha]
      by_cases hee : e = now - E.payDelay
      · subst hee
        rw [upd_same] at ht ⊢
        injection ht with ht
        exact ⟨h0, ht.symm⟩
      · rw [upd_ne _ _ hee] at ht ⊢; exact p.live e total ht

theorem StartSpec.pay {now : Nat} (hc : Core E F) (hs : StartSpec E pub F F' now) (p : Pay E F) : Pay E F' := by
  obtain ⟨F1, F2, h1, h2, h3⟩ := hs.ex
  have hf : PrepFrame F F1 := by rw [h1]; exact prepIf_frame ..
  have hg := h2.frame
  have key : (∀ e, ((F1.awarded e).map Prod.fst).Nodup) ∧ (∀ e, F.led.era + 1 < e + E.payDelay → valSum (F1.awarded e) = F1.points e) ∧
      (∀ e, F.led.era + 1 < e + E.payDelay → F1.delayed e = none) ∧ (∀ e total, F1.delayed e = some total → F1.points e ≠ 0 ∧ total = F1.aside e) := by
    by_cases he : E.par.enabled = true
    · rw [if_pos he] at h1
      rw [h1]
      exact prep_pay rfl (preparePayouts_ok E pub F _) p
    · rw [if_neg he] at h1
      rw [h1]
      exact ⟨p.nodup, fun e h => p.pts e (by omega), fun e h => p.del e (by omega), p.live⟩
  subst h3
  refine ⟨?_, ?_, ?_, ?_, ?_, ?_, ?_, ?_, ?_, ?_⟩
  · show ∀ e, ((F2.awarded e).map Prod.fst).Nodup
    rw [hg.awarded]; exact key.1
  · show ∀ e, F.led.era + 1 < e + E.payDelay → valSum (F2.awarded e) = F2.points e
    rw [hg.awarded, hg.points]; exact key.2.1
  · show ∀ e, F.led.era + 1 < e + E.payDelay → F2.delayed e = none
    rw [hg.delayed]; exact key.2.2.1
  · show ∀ x ∈ F2.served, x.1 + E.payDelay ≤ F.led.era + 1
    rw [hg.served, hf.served]
    intro x hx
    have := p.late x hx
    omega
  · show ∀ x ∈ F2.served, x.2 ∉ (F2.awarded x.1).map Prod.fst
    rw [hg.served, hf.served, hg.awarded, hf.awarded]; exact p.out
  · show F2.served.Nodup
    rw [hg.served, hf.served]; exact p.once
  · show ∀ q ∈ F2.paid, (q.era, q.collator) ∈ F2.served
    rw [hg.served, hf.served, hg.paid, hf.paid]; exact p.logged
  · refine h2.snaps (P := E.par) (by rw [hf.led]; exact hc.led) SnapOk ?_ ?_
    · intro c r hr
      rw [hf.led] at hr ⊢
      exact snapshot_ok hc.led hr
    · rw [hf.atStake]; exact p.snap
  · show (F2.paid.map _).Nodup
    rw [hg.paid, hf.paid]; exact p.payees
  · show ∀ e total, F2.delayed e = some total → F2.points e ≠ 0 ∧ total = F2.aside e
    rw [hg.delayed, hg.points, hg.aside]; exact key.2.2.2

theorem remaining_le (p : Pay E F) {e : Nat} (he : F.led.era < e + E.payDelay) (h0 : F.points e ≠ 0) : remaining F e ≤ billion := by
  have h1 := sum_ratio_le ((F.awarded e).map Prod.snd) (F.points e) (by omega) (by have := p.pts e he; unfold valSum at this; omega)
  rw [List.map_map] at h1
  exact h1

theorem StartSpec.sums (hd : 1 ≤ E.payDelay) {now : Nat} (hc : Core E F) (hs : StartSpec E pub F F' now) (p : Pay E F) (g : Sums F) : Sums F' := by
  obtain ⟨F1, F2, h1, h2, h3⟩ := hs.ex
  have hf : PrepFrame F F1 := by rw [h1]; exact prepIf_frame ..
  have hg := h2.frame
  have key : (∀ e total, F1.delayed e = some total → total = F1.aside e ∧
      2 * (billion * paidSum F e) + 2 * (remaining F e * total) ≤
        2 * (billion * total) + billion * ((paidOf F e).length + (servedOf F e).length)) ∧
      (∀ e, 2 * paidSum F e ≤ 2 * F1.aside e + (paidOf F e).length + (servedOf F e).length) := by
    by_cases he : E.par.enabled = true
    · rw [if_pos he] at h1
      have hp := preparePayouts_ok E pub F (F.led.era + 1)
      rw [← h1] at hp
      cases hp with
      | idle k => rw [k]; exact ⟨g.now, g.all⟩
      | set late h0 _ _ k1 k2 =>
        have hun : F.led.era < F.led.era + 1 - E.payDelay + E.payDelay := by omega
        obtain ⟨n1, n2⟩ := p.notPaid hun
        constructor
        · intro e total ht
          rw [k1] at ht
          rw [k2]
          by_cases hee : e = F.led.era + 1 - E.payDelay
          · subst hee
            rw [upd_same] at ht
            injection ht with ht
            rw [upd_same]
            refine ⟨ht.symm, ?_⟩
            have hz : paidSum F (F.led.era + 1 - E.payDelay) = 0 := by unfold paidSum; rw [n1]; rfl
            rw [n1, n2, hz]
            have hr := remaining_le p hun h0
            have := Nat.mul_le_mul_right total hr
            simp only [List.length_nil, Nat.mul_zero, Nat.zero_add, Nat.add_zero]
            omega
          · rw [upd_ne _ _ hee] at ht
            rw [upd_ne _ _ hee]
            exact g.now e total ht
        · intro e
          rw [k2]
          by_cases hee : e = F.led.era + 1 - E.payDelay
          · subst hee
            have hz : paidSum F (F.led.era + 1 - E.payDelay) = 0 := by unfold paidSum; rw [n1]; rfl
            rw [hz]
            exact Nat.zero_le _
          · rw [upd_ne _ _ hee]; exact g.all e
    · rw [if_neg he] at h1
      rw [h1]
      exact ⟨g.now, g.all⟩
  have hpd : F2.paid = F.paid := hg.paid.trans hf.paid
  have hsv : F2.served = F.served := hg.served.trans hf.served
  have haw : F2.awarded = F.awarded := hg.awarded.trans hf.awarded
  have hpt : F2.points = F.points := hg.points.trans hf.points
  subst h3
  refine ⟨?_, ?_, ?_, ?_, ?_⟩
  · show ∀ c r, F2.led.cands c = some r → _
    rw [hg.led, hf.led]; exact g.bond
  · show 1 ≤ F2.led.minCollator
    rw [hg.led, hf.led]; exact g.min
  · refine h2.snaps (P := E.par) (by rw [hf.led]; exact hc.led) (fun _ sn => 0 < sn.bond) ?_ ?_
    · intro c r hr
      rw [hf.led] at hr
      exact g.bond c r hr
    · rw [hf.atStake]; exact g.snap
  · intro e total ht
    have ht : F2.delayed e = some total := ht
    rw [hg.delayed] at ht
    have := key.1 e total ht
    unfold paidSum paidOf servedOf remaining at this ⊢
    dsimp only at this ⊢
    rw [hpd, hsv, haw, hpt, hg.aside]
    exact this
  · intro e
    have := key.2 e
    unfold paidSum paidOf servedOf at this ⊢
    dsimp only at this ⊢
    rw [hpd, hsv, hg.aside]
    exact this

/-! Paying one collator. -/

/-- The state before the payments to a collator. -/
def turn (F : Full) (e c : Nat) : Full :=
  { F with awarded := upd F.awarded e (alDel (F.awarded e) c), atStake := upd F.atStake e (alDel (F.atStake e) c),
           served := F.served ++ [(e, c)] }

theorem payTurn_pay {e c pts : Nat} (h1 : e + E.payDelay ≤ F.led.era) (hm : (c, pts) ∈ F.awarded e) (p : Pay E F) (reward : Nat) :
    Pay E ((rewardsOf c reward (alGet (F.atStake e) c Snap.zero)).foldl (payReward E e c) (turn F e c)) := by
  obtain ⟨f, k, pd, hq⟩ := payRewards_eq E e c (rewardsOf c reward (alGet (F.atStake e) c Snap.zero)) (turn F e c)
  obtain ⟨m, hsub, hlog⟩ := payRewards_paid E e c (rewardsOf c reward (alGet (F.atStake e) c Snap.zero)) (turn F e c)
  have hlog : (List.foldl (payReward E e c) (turn F e c) (rewardsOf c reward (alGet (F.atStake e) c Snap.zero))).paid =
    F.paid ++ m.map (fun x => ⟨e, c, x.1, x.2⟩) := hlog
  rw [hq] at hlog ⊢
  have hlog : pd = F.paid ++ m.map (fun x => ⟨e, c, x.1, x.2⟩) := hlog
  subst hlog
  have hnew : (e, c) ∉ F.served := fun h => p.out _ h (List.mem_map.2 ⟨_, hm, rfl⟩)
  refine ⟨?_, ?_, p.del, ?_, ?_, ?_, ?_, ?_, ?_, p.live⟩
  · intro d
    show ((upd F.awarded e _ d).map Prod.fst).Nodup
    by_cases hd : d = e
    · subst hd; rw [upd_same]; exact alDel_nodup (p.nodup _)
    · rw [upd_ne _ _ hd]; exact p.nodup d
  · intro d hd
    have hd : F.led.era < d + E.payDelay := hd
    show valSum (upd F.awarded e _ d) = F.points d
    rw [upd_ne _ _ (by omega)]
    exact p.pts d hd
  · intro x hx
    have hx : x ∈ F.served ++ [(e, c)] := hx
    show x.1 + E.payDelay ≤ F.led.era
    rcases List.mem_append.1 hx with hx | hx
    · exact p.late x hx
    · rw [List.mem_singleton.1 hx]; exact h1
  · intro x hx
    have hx : x ∈ F.served ++ [(e, c)] := hx
    show x.2 ∉ (upd F.awarded e _ x.1).map Prod.fst
    rcases List.mem_append.1 hx with hx | hx
    · by_cases hd : x.1 = e
      · rw [hd, upd_same]
        intro hh
        have := p.out x hx
        rw [hd] at this
        exact this (alDel_key.1 hh).1
      · rw [upd_ne _ _ hd]; exact p.out x hx
    · rw [List.mem_singleton.1 hx, upd_same]
      intro hh
      exact (alDel_key.1 hh).2 rfl
  · show (F.served ++ [(e, c)]).Nodup
    refine List.nodup_append.2 ⟨p.once, by simp, ?_⟩
    intro a ha b hb
    rw [List.mem_singleton.1 hb]
    rintro rfl
    exact hnew ha
  · intro x hx
    have hx : x ∈ F.paid ++ m.map (fun x => (⟨e, c, x.1, x.2⟩ : Payment)) := hx
    show _ ∈ F.served ++ [(e, c)]
    rcases List.mem_append.1 hx with hx | hx
    · exact List.mem_append_left _ (p.logged x hx)
    · obtain ⟨y, _, rfl⟩ := List.mem_map.1 hx
      exact List.mem_append_right _ (List.mem_singleton.2 rfl)
  · intro d x hx
    have hx : x ∈ upd F.atStake e _ d := hx
    by_cases hd : d = e
    · subst hd
      rw [upd_same] at hx
      exact p.snap d x (alDel_mem.1 hx).1
    · rw [upd_ne _ _ hd] at hx; exact p.snap d x hx
  · show ((F.paid ++ m.map (fun x => (⟨e, c, x.1, x.2⟩ : Payment))).map _).Nodup
    rw [List.map_append, List.nodup_append]
    refine ⟨p.payees, ?_, ?_⟩
    · rw [List.map_map]
      have hn : (m.map Prod.fst).Nodup := by
        refine List.Nodup.sublist (hsub.map _) ?_
        have hsn : (c :: (alGet (F.atStake e) c Snap.zero).noms.map Bond.owner).Nodup := by
          rcases alGet_mem (l := F.atStake e) (k := c) (d := Snap.zero) with h | h
          · rw [h]; exact List.nodup_cons.2 ⟨List.not_mem_nil, List.nodup_nil⟩
          · exact (p.snap e _ h).once
        unfold rewardsOf
        rw [List.map_cons]
        refine List.Nodup.sublist ?_ hsn
        refine List.Sublist.cons_cons c ?_
        refine (List.filter_sublist.map Prod.fst).trans ?_
        rw [List.map_map]
        exact List.Sublist.refl _
      have : m.map ((fun p : Payment => (p.era, p.collator, p.payee)) ∘ fun x => ⟨e, c, x.1, x.2⟩) = (m.map Prod.fst).map (fun a => (e, c, a)) := by
        rw [List.map_map]; rfl
      rw [this]
      exact List.Pairwise.map _ (fun a b h e => h (by injection e with _ e; injection e)) hn
    · intro a ha b hb
      obtain ⟨x, hx, rfl⟩ := List.mem_map.1 ha
      obtain ⟨y, hy, rfl⟩ := List.mem_map.1 hb
      obtain ⟨z, _, rfl⟩ := List.mem_map.1 hy
      intro heq
      injection heq with e1 e2
      injection e2 with e2 e3
      have := p.logged x hx
      rw [e1, e2] at this
      exact hnew this

/-- The sum of the logged payments of a turn. -/
theorem logged_bound (reward : Nat) (ws m : List (Nat × Nat)) (h : m.Sublist (ws.map (fun w => (w.1, perbillMul w.2 reward)))) :
    2 * (billion * valSum m) ≤ 2 * (valSum ws * reward) + m.length * billion := by
  obtain ⟨ws', h1, rfl⟩ := List.sublist_map_iff.1 h
  have h2 := sum_perbill_le reward (ws'.map Prod.snd)
  have e1 : valSum (ws'.map (fun w => (w.1, perbillMul w.2 reward))) = ((ws'.map Prod.snd).map (fun p => perbillMul p reward)).sum := by
    unfold valSum; rw [List.map_map, List.map_map]; rfl
  rw [e1, List.length_map]
  rw [List.length_map] at h2
  have h3 : (ws'.map Prod.snd).sum ≤ valSum ws := sublist_sum h1
  have := Nat.mul_le_mul_right reward h3
  omega

theorem arith_turn (b S R ρ ρ' total reward m nP nS A : Nat)
    (h1 : 2 * (b * S) + 2 * (R * total) ≤ 2 * (b * total) + b * (nP + nS))
    (hR : R = ρ + ρ') (h2 : 2 * (b * reward) ≤ 2 * (ρ * total) + b) (h3 : 2 * (b * A) ≤ 2 * (b * reward) + m * b) :
    2 * (b * (S + A)) + 2 * (ρ' * total) ≤ 2 * (b * total) + b * (nP + m + (nS + 1)) := by
  subst hR
  rw [Nat.add_mul] at h1
  rw [Nat.mul_comm m b] at h3
  simp only [Nat.mul_add, Nat.mul_one] at h1 ⊢
  omega

theorem payTurn_sums (hi : 1 ≤ E.payDelay) {e c pts total : Nat} (hm : (c, pts) ∈ F.awarded e) (hdue : F.delayed e = some total) (p : Pay E F) (g : Sums F) :
    Sums ((rewardsOf c (perbillMul (ratio pts (F.points e)) total) (alGet (F.atStake e) c Snap.zero)).foldl (payReward E e c) (turn F e c)) := by
  generalize hrw : perbillMul (ratio pts (F.points e)) total = reward
  obtain ⟨f, k, pd, hq⟩ := payRewards_eq E e c (rewardsOf c reward (alGet (F.atStake e) c Snap.zero)) (turn F e c)
  obtain ⟨m, hsub, hlog⟩ := payRewards_paid E e c (rewardsOf c reward (alGet (F.atStake e) c Snap.zero)) (turn F e c)
  have hlog : (List.foldl (payReward E e c) (turn F e c) (rewardsOf c reward (alGet (F.atStake e) c Snap.zero))).paid =
    F.paid ++ m.map (fun x => ⟨e, c, x.1, x.2⟩) := hlog
  rw [hq] at hlog ⊢
  have hlog : pd = F.paid ++ m.map (fun x => ⟨e, c, x.1, x.2⟩) := hlog
  subst hlog
  generalize hpd : (F.paid ++ m.map (fun x => (⟨e, c, x.1, x.2⟩ : Payment))) = pd
  generalize hG : ({ turn F e c with led := { (turn F e c).led with free := f }, locked := k, paid := pd } : Full) = G
  have gp : G.paid = F.paid ++ m.map (fun x => ⟨e, c, x.1, x.2⟩) := by rw [hpd, ← hG]
  have gs : G.served = F.served ++ [(e, c)] := by rw [← hG]; rfl
  have ga : G.awarded = upd F.awarded e (alDel (F.awarded e) c) := by rw [← hG]; rfl
  have gpt : G.points = F.points := by rw [← hG]; rfl
  have gd : G.delayed = F.delayed := by rw [← hG]; rfl
  have gas : G.aside = F.aside := by rw [← hG]; rfl
  have gst : G.atStake = upd F.atStake e (alDel (F.atStake e) c) := by rw [← hG]; rfl
  have gc : G.led.cands = F.led.cands := by rw [← hG]; rfl
  have gm : G.led.minCollator = F.led.minCollator := by rw [← hG]; rfl
  -- the logs of the era and of the others
  have l1 : paidOf G e = paidOf F e ++ m.map (fun x => ⟨e, c, x.1, x.2⟩) := by
    unfold paidOf
    rw [gp, List.filter_append]
    congr 1
    rw [List.filter_eq_self]
    intro y hy
    obtain ⟨z, _, rfl⟩ := List.mem_map.1 hy
    exact decide_eq_true rfl
  have l2 : ∀ d, d ≠ e → paidOf G d = paidOf F d := by
    intro d hd
    unfold paidOf
    rw [gp, List.filter_append]
    have : (m.map (fun x => (⟨e, c, x.1, x.2⟩ : Payment))).filter (fun q => decide (q.era = d)) = [] := by
      rw [List.filter_eq_nil_iff]
      intro y hy hh
      obtain ⟨z, _, rfl⟩ := List.mem_map.1 hy
      exact hd (of_decide_eq_true hh).symm
    rw [this, List.append_nil]
  have l3 : (servedOf G e).length = (servedOf F e).length + 1 := by
    unfold servedOf
    rw [gs, List.filter_append, List.length_append]
    congr 1
    simp
  have l4 : ∀ d, d ≠ e → servedOf G d = servedOf F d := by
    intro d hd
    unfold servedOf
    rw [gs, List.filter_append]
    have : [(e, c)].filter (fun x => decide (x.1 = d)) = [] := by
      rw [List.filter_eq_nil_iff]
      intro y hy hh
      rw [List.mem_singleton.1 hy] at hh
      exact hd (of_decide_eq_true hh).symm
    rw [this, List.append_nil]
  have l5 : paidSum G e = paidSum F e + valSum m := by
    unfold paidSum
    rw [l1, List.map_append, List.sum_append]
    congr 1
    rw [List.map_map]
    rfl
  have l6 : ∀ d, d ≠ e → paidSum G d = paidSum F d := by
    intro d hd; unfold paidSum; rw [l2 d hd]
  have hrem : remaining F e = ratio pts (F.points e) + remaining G e := by
    unfold remaining
    rw [ga, upd_same, gpt]
    have := ((alDel_perm (p.nodup e) hm).map (fun x => ratio x.2 (F.points e))).sum_nat
    rw [this, List.map_cons, List.sum_cons]
  obtain ⟨ht, hnow⟩ := g.now e total hdue
  have hsn : (SnapOk c (alGet (F.atStake e) c Snap.zero) ∧ 0 < (alGet (F.atStake e) c Snap.zero).bond) ∨ alGet (F.atStake e) c Snap.zero = Snap.zero := by
    rcases alGet_mem (l := F.atStake e) (k := c) (d := Snap.zero) with h | h
    · exact Or.inr h
    · exact Or.inl ⟨p.snap e _ h, g.snap e _ h⟩
  have hA : 2 * (billion * valSum m) ≤ 2 * (billion * reward) + m.length * billion := by
    rw [rewardsOf_eq] at hsub
    have h1 := logged_bound reward _ m hsub
    have h2 := Nat.mul_le_mul_right reward (weights_sum (reward := reward) hsn)
    omega
  have hB : 2 * (billion * reward) ≤ 2 * (ratio pts (F.points e) * total) + billion := by
    rw [← hrw]; exact perbillMul_two _ _
  have hE := arith_turn billion (paidSum F e) (remaining F e) (ratio pts (F.points e)) (remaining G e) total reward m.length
    (paidOf F e).length (servedOf F e).length (valSum m) hnow hrem hB hA
  have hlen : (paidOf G e).length = (paidOf F e).length + m.length := by rw [l1, List.length_append, List.length_map]
  refine ⟨by rw [gc]; exact g.bond, by rw [gm]; exact g.min, ?_, ?_, ?_⟩
  · intro d x hx
    rw [gst] at hx
    by_cases hd : d = e
    · subst hd
      rw [upd_same] at hx
      exact g.snap d x (alDel_mem.1 hx).1
    · rw [upd_ne _ _ hd] at hx; exact g.snap d x hx
  · intro d t hdl
    rw [gd] at hdl
    rw [gas]
    by_cases hd : d = e
    · subst hd
      rw [hdue] at hdl
      injection hdl with hdl
      subst hdl
      refine ⟨ht, ?_⟩
      rw [l5, hlen, l3]
      exact hE
    · rw [l6 d hd, l2 d hd, l4 d hd]
      have : remaining G d = remaining F d := by unfold remaining; rw [ga, gpt, upd_ne _ _ hd]
      rw [this]
      exact g.now d t hdl
  · intro d
    rw [gas]
    by_cases hd : d = e
    · subst hd
      rw [l5, hlen, l3, ← ht]
      have h1 : 2 * (billion * (paidSum F d + valSum m)) ≤
          2 * (billion * total) + ((paidOf F d).length + m.length + ((servedOf F d).length + 1)) * billion := by
        rw [Nat.mul_comm _ billion]; omega
      have := cancel_bound billion (paidSum F d + valSum m) total ((paidOf F d).length + m.length + ((servedOf F d).length + 1)) billion billion_pos
        (by omega) (Nat.le_refl _)
      omega
    · rw [l6 d hd, l2 d hd, l4 d hd]; exact g.all d

/-! All of it. -/

theorem HandleSpec.pay {e : Nat} (he : e = F.led.era) (hs : HandleSpec E F F' e) (p : Pay E F) : Pay E F' := by
  cases hs with
  | idle h => subst h; exact p
  | ended late total due why h =>
    subst h
    refine ⟨p.nodup, ?_, ?_, p.late, p.out, p.once, p.logged, p.snap, p.payees, ?_⟩
    · intro d hd
      have hd : F.led.era < d + E.payDelay := hd
      show valSum (F.awarded d) = upd F.points _ 0 d
      rw [upd_ne _ _ (by omega)]
      exact p.pts d hd
    · intro d hd
      have hd : F.led.era < d + E.payDelay := hd
      show upd F.delayed _ none d = none
      rw [upd_ne _ _ (by omega)]
      exact p.del d hd
    · intro d t ht
      have ht : upd F.delayed (e - E.payDelay) none d = some t := ht
      show upd F.points (e - E.payDelay) 0 d ≠ 0 ∧ t = F.aside d
      by_cases hd : d = e - E.payDelay
      · subst hd; rw [upd_same] at ht; cases ht
      · rw [upd_ne _ _ hd] at ht ⊢; exact p.live d t ht
  | paid late total due h =>
    cases h with
    | paid c pts mem nz now =>
      subst now
      exact payTurn_pay (by omega) mem p _

theorem HandleSpec.sums (hi : 1 ≤ E.payDelay) {e : Nat} (hs : HandleSpec E F F' e) (p : Pay E F) (g : Sums F) : Sums F' := by
  cases hs with
  | idle h => subst h; exact g
  | ended late total due why h =>
    subst h
    refine ⟨g.bond, g.min, g.snap, ?_, g.all⟩
    intro d t hdl
    have hdl : upd F.delayed (e - E.payDelay) none d = some t := hdl
    by_cases hd : d = e - E.payDelay
    · subst hd; rw [upd_same] at hdl; cases hdl
    · rw [upd_ne _ _ hd] at hdl
      have := g.now d t hdl
      have e1 : remaining { F with delayed := upd F.delayed (e - E.payDelay) none, points := upd F.points (e - E.payDelay) 0 } d = remaining F d := by
        show ((F.awarded d).map (fun x => ratio x.2 (upd F.points _ 0 d))).sum = _
        rw [upd_ne _ _ hd]
        rfl
      rw [e1]
      exact this
  | paid late total due h =>
    cases h with
    | paid c pts mem nz now =>
      subst now
      exact payTurn_sums hi mem due p g

end Verif.Staking
