import Verif.Model.Staking
import Verif.Lemmas.StakingCandidate3

/-! # The nominators' side of the staking ledger -/

namespace Verif.Staking

/-- The constants are sensible. -/
structure Par.Ok (P : Par) : Prop where
  cfg : P.cfg.Ok
  max : P.maxPer ≤ vecCap
  pos : 1 ≤ P.minPer

/-! ### Lists of requests -/

/-- The amount a nominator has pending in a list of requests. -/
def pend (l : List Req) (n : Nat) : Nat := ((findReq l n).map Req.amount).getD 0

/-- The amounts a nominator has pending towards the collators of a list. -/
def pendSum (reqs : Nat → List Req) (n : Nat) : List Bond → Nat
  | [] => 0
  | b :: l => pend (reqs b.owner) n + pendSum reqs n l

/-- No nominator has two requests. -/
def RUniq (l : List Req) : Prop := (l.map Req.nominator).Nodup

theorem findReq_some {l : List Req} {n : Nat} {q : Req} (h : findReq l n = some q) : q ∈ l ∧ q.nominator = n :=
  ⟨List.mem_of_find?_eq_some h, by simpa [Req.by] using List.find?_some h⟩

theorem findReq_none {l : List Req} {n : Nat} : findReq l n = none ↔ ∀ q ∈ l, q.nominator ≠ n := by
  unfold findReq
  rw [List.find?_eq_none]
  constructor
  · intro h q hq; simpa [Req.by] using h q hq
  · intro h q hq; simpa [Req.by] using h q hq

theorem RUniq.eq {l : List Req} (u : RUniq l) {x y : Req} (hx : x ∈ l) (hy : y ∈ l) (e : x.nominator = y.nominator) : x = y := by
  induction l with
  | nil => cases hx
  | cons z l ih =>
    obtain ⟨h1, h2⟩ := List.nodup_cons.1 u
    rcases List.mem_cons.1 hx with rfl | hx' <;> rcases List.mem_cons.1 hy with rfl | hy'
    · rfl
    · exact absurd (e ▸ List.mem_map_of_mem hy') h1
    · exact absurd (e ▸ List.mem_map_of_mem hx') h1
    · exact ih h2 hx' hy'

theorem findReq_mem {l : List Req} (u : RUniq l) {q : Req} (hq : q ∈ l) : findReq l q.nominator = some q := by
  cases h : findReq l q.nominator with
  | none => exact absurd rfl (findReq_none.1 h q hq)
  | some p =>
    obtain ⟨h1, h2⟩ := findReq_some h
    rw [u.eq h1 hq h2]

theorem any_by {l : List Req} {n : Nat} : l.any (Req.by n) = false ↔ ∀ q ∈ l, q.nominator ≠ n := by
  rw [List.any_eq_false]
  constructor
  · intro h q hq; simpa [Req.by] using h q hq
  · intro h q hq; simpa [Req.by] using h q hq

theorem dropReq_eq_filter {l : List Req} (u : RUniq l) (n : Nat) : dropReq l n = l.filter (fun q => decide (q.nominator ≠ n)) := by
  induction l with
  | nil => rfl
  | cons q l ih =>
    obtain ⟨h1, h2⟩ := List.nodup_cons.1 u
    unfold dropReq at ih ⊢
    by_cases h : q.nominator = n
    · rw [List.eraseP_cons_of_pos (by simp [Req.by, h]), List.filter_cons_of_neg (by simp [h])]
      rw [List.filter_eq_self.2]
      intro p hp
      have : p.nominator ≠ n := by intro e; rw [h, ← e] at h1; exact h1 (List.mem_map_of_mem hp)
      simpa using this
    · rw [List.eraseP_cons_of_neg (by simp [Req.by, h]), List.filter_cons_of_pos (by simp [h]), ih h2]

theorem dropReq_mem {l : List Req} (u : RUniq l) {n : Nat} {q : Req} : q ∈ dropReq l n ↔ q ∈ l ∧ q.nominator ≠ n := by
  rw [dropReq_eq_filter u]; simp [List.mem_filter]

theorem dropReq_uniq {l : List Req} (u : RUniq l) (n : Nat) : RUniq (dropReq l n) :=
  List.Nodup.sublist (List.Sublist.map _ List.eraseP_sublist) u

theorem dropReq_length (l : List Req) (n : Nat) : (dropReq l n).length ≤ l.length := List.eraseP_sublist.length_le

theorem findReq_drop_self {l : List Req} (u : RUniq l) (n : Nat) : findReq (dropReq l n) n = none := by
  rw [findReq_none]; intro q hq; exact ((dropReq_mem u).1 hq).2

theorem findReq_drop_ne {l : List Req} (u : RUniq l) {n m : Nat} (h : m ≠ n) : findReq (dropReq l n) m = findReq l m := by
  cases hq : findReq l m with
  | none =>
    rw [findReq_none]
    intro q h1
    exact findReq_none.1 hq q ((dropReq_mem u).1 h1).1
  | some q =>
    obtain ⟨h1, h2⟩ := findReq_some hq
    have h3 : q ∈ dropReq l n := (dropReq_mem u).2 ⟨h1, by rw [h2]; exact h⟩
    rw [← h2]; exact findReq_mem (dropReq_uniq u n) h3

theorem pend_drop_self {l : List Req} (u : RUniq l) (n : Nat) : pend (dropReq l n) n = 0 := by
  unfold pend; rw [findReq_drop_self u]; rfl

theorem pend_drop_ne {l : List Req} (u : RUniq l) {n m : Nat} (h : m ≠ n) : pend (dropReq l n) m = pend l m := by
  unfold pend; rw [findReq_drop_ne u h]

theorem pend_none {l : List Req} {n : Nat} (h : ∀ q ∈ l, q.nominator ≠ n) : pend l n = 0 := by
  unfold pend; rw [findReq_none.2 h]; rfl

theorem RUniq.push {l : List Req} (u : RUniq l) {q : Req} (h : ∀ x ∈ l, x.nominator ≠ q.nominator) : RUniq (l ++ [q]) := by
  unfold RUniq at *
  rw [List.map_append]
  refine List.nodup_append.2 ⟨u, by simp, ?_⟩
  intro a ha b hb e
  obtain ⟨x, hx, rfl⟩ := List.mem_map.1 ha
  simp at hb
  exact h x hx (e.trans hb)

theorem pend_push_self {l : List Req} {q : Req} (h : ∀ x ∈ l, x.nominator ≠ q.nominator) : pend (l ++ [q]) q.nominator = q.amount := by
  unfold pend findReq
  rw [List.find?_append]
  have : l.find? (Req.by q.nominator) = none := findReq_none.2 h
  rw [this]
  simp [Req.by]

theorem pend_push_ne {l : List Req} {q : Req} {m : Nat} (h : m ≠ q.nominator) : pend (l ++ [q]) m = pend l m := by
  unfold pend findReq
  rw [List.find?_append]
  have : [q].find? (Req.by m) = none := by simp [Req.by, Ne.symm h]
  rw [this]; simp

theorem pendSum_congr {reqs reqs' : Nat → List Req} {n : Nat} {l : List Bond}
    (h : ∀ b ∈ l, pend (reqs' b.owner) n = pend (reqs b.owner) n) : pendSum reqs' n l = pendSum reqs n l := by
  induction l with
  | nil => rfl
  | cons b l ih =>
    simp only [pendSum]
    rw [h b (List.mem_cons_self ..), ih (fun x hx => h x (List.mem_cons_of_mem _ hx))]

theorem pendSum_perm {reqs : Nat → List Req} {n : Nat} {l r : List Bond} (h : l.Perm r) : pendSum reqs n l = pendSum reqs n r := by
  induction h with
  | nil => rfl
  | cons x _ ih => simp [pendSum, ih]
  | swap x y l => simp only [pendSum]; omega
  | trans _ _ h1 h2 => exact h1.trans h2

theorem pendSum_map {reqs : Nat → List Req} {n : Nat} {l r : List Bond} (h : l.map Bond.owner = r.map Bond.owner) :
    pendSum reqs n l = pendSum reqs n r := by
  induction l generalizing r with
  | nil => cases r with
    | nil => rfl
    | cons => simp at h
  | cons x l ih =>
    cases r with
    | nil => simp at h
    | cons y r =>
      simp only [List.map_cons, List.cons.injEq] at h
      simp only [pendSum, h.1, ih h.2]

/-! ### Sets of nominations -/

theorem KeySorted.uniq {l : List Bond} (h : KeySorted Bond.owner l) : Uniq l := by
  unfold Uniq
  rw [List.Nodup, List.pairwise_map]
  exact List.Pairwise.imp (fun h => Nat.ne_of_lt h) h

theorem KeySorted.without {l : List Bond} (h : KeySorted Bond.owner l) (n : Nat) : KeySorted Bond.owner (without l n) :=
  List.Pairwise.filter _ h

theorem KeySorted.adjust {l : List Bond} (h : KeySorted Bond.owner l) (n : Nat) (f : Nat → Nat) :
    KeySorted Bond.owner (adjust l n f) := by
  unfold KeySorted Verif.Staking.adjust at *
  rw [List.pairwise_map]
  refine List.Pairwise.imp ?_ h
  intro a b hab
  by_cases h1 : a.owner ≠ n <;> by_cases h2 : b.owner ≠ n
  · rw [if_pos h1, if_pos h2]; exact hab
  · rw [if_pos h1, if_neg h2]; exact hab
  · rw [if_neg h1, if_pos h2]; exact hab
  · rw [if_neg h1, if_neg h2]; exact hab

theorem setInsert_last {l : List Bond} (h : KeySorted Bond.owner l) {v : Bond} (hv : ∀ x ∈ l, x.owner < v.owner)
    (hc : l.length < vecCap) : setInsert Bond.owner vecCap l v = (.added, l ++ [v]) := by
  rcases setInsert_cases h vecCap v with ⟨⟨x, hx, e⟩, _⟩ | ⟨a, b, hl, ha, hb, e⟩
  · have := hv x hx; omega
  · rw [e, if_pos hc]
    have : b = [] := by
      cases b with
      | nil => rfl
      | cons y b =>
        have h1 := hb y (List.mem_cons_self ..)
        have h2 := hv y (by rw [hl]; simp)
        omega
    subst this
    simp at hl
    rw [hl]

theorem rebuildSet_eq {l : List Bond} (h : KeySorted Bond.owner l) (hc : l.length ≤ vecCap) : rebuildSet l = l := by
  have key : ∀ (r acc : List Bond), KeySorted Bond.owner (acc ++ r) → (acc ++ r).length ≤ vecCap →
      r.foldl (fun acc x => (setInsert Bond.owner vecCap acc x).2) acc = acc ++ r := by
    intro r
    induction r with
    | nil => intro acc _ _; simp
    | cons x r ih =>
      intro acc hs hl
      have h1 := List.pairwise_append.1 hs
      have h2 : setInsert Bond.owner vecCap acc x = (.added, acc ++ [x]) := by
        refine setInsert_last h1.1 (fun y hy => h1.2.2 y hy x (List.mem_cons_self ..)) ?_
        simp at hl; omega
      rw [List.foldl_cons, h2]
      have e : acc ++ [x] ++ r = acc ++ x :: r := by simp
      rw [ih (acc ++ [x]) (by rw [e]; exact hs) (by rw [e]; exact hl), e]
  have := key l [] (by simpa using h) (by simpa using hc)
  rw [List.nil_append] at this
  exact this

/-! ### The invariant of the nominators' side -/

/-- A nominator's record: sorted, not empty, within the limit, its total and lock are the sum of its bonds, the amount pending is
that of its requests, and every bond is at least the minimum. -/
structure NRec (P : Par) (reqs : Nat → List Req) (n lock : Nat) (r : Nomr) : Prop where
  sorted : KeySorted Bond.owner r.noms
  ne : r.noms ≠ []
  len : r.noms.length ≤ P.maxPer
  total : r.total = sumAmt r.noms
  lock : lock = r.total
  less : r.less = pendSum reqs n r.noms
  min : ∀ b ∈ r.noms, P.minPer ≤ b.amount

/-- A request refers to a bond: a revoke is for all of it, a decrease leaves at least the minimum. -/
def ReqOk (P : Par) (noms : Nat → Option Nomr) (c : Nat) (q : Req) : Prop :=
  ∃ r b, noms q.nominator = some r ∧ b ∈ r.noms ∧ b.owner = c ∧ (q.revoke = true → q.amount = b.amount) ∧
    (q.revoke = false → q.amount + P.minPer ≤ b.amount)

/-- The invariant of records, locks and requests. -/
structure NSide (P : Par) (noms : Nat → Option Nomr) (nlock : Nat → Nat) (reqs : Nat → List Req) : Prop where
  some : ∀ n r, noms n = some r → NRec P reqs n (nlock n) r
  none : ∀ n, noms n = none → nlock n = 0
  uniq : ∀ c, RUniq (reqs c)
  len : ∀ c, (reqs c).length ≤ P.maxPer
  req : ∀ c, ∀ q ∈ reqs c, ReqOk P noms c q

/-- A nominator has a bond of that amount with that collator, by its own record. -/
def HasN (noms : Nat → Option Nomr) (n c a : Nat) : Prop := ∃ r, noms n = some r ∧ (⟨c, a⟩ : Bond) ∈ r.noms

variable {P : Par} {noms : Nat → Option Nomr} {nlock : Nat → Nat} {reqs : Nat → List Req}

theorem NSide.pend_absent (h : NSide P noms nlock reqs) {n c : Nat}
    (hab : ∀ r, noms n = .some r → ∀ b ∈ r.noms, b.owner ≠ c) : ∀ q ∈ reqs c, q.nominator ≠ n := by
  intro q hq e
  obtain ⟨r, b, h1, h2, h3, _⟩ := h.req c q hq
  rw [e] at h1
  exact hab r h1 b h2 h3

theorem HasN.functional (h : NSide P noms nlock reqs) {n c a a' : Nat} (h1 : HasN noms n c a) (h2 : HasN noms n c a') : a = a' := by
  obtain ⟨r, e1, m1⟩ := h1
  obtain ⟨r', e2, m2⟩ := h2
  rw [e1] at e2
  injection e2 with e2
  subst e2
  have := (h.some n r e1).sorted.uniq.eq m1 m2 rfl
  injection this

/-- Dropping a request. -/
theorem NSide.drop (h : NSide P noms nlock reqs) {n c : Nat} {r : Nomr} (hr : noms n = .some r) (hb : ∃ b ∈ r.noms, b.owner = c) :
    NSide P (upd noms n (.some { r with less := r.less - pend (reqs c) n })) nlock (upd reqs c (dropReq (reqs c) n)) := by
  have hu := h.uniq
  have hnr := h.some n r hr
  refine ⟨?_, ?_, ?_, ?_, ?_⟩
  · intro m r' hm
    by_cases e : m = n
    · subst e
      rw [upd_same] at hm
      injection hm with hm
      subst hm
      refine ⟨hnr.sorted, hnr.ne, hnr.len, hnr.total, hnr.lock, ?_, hnr.min⟩
      obtain ⟨b, hb, rfl⟩ := hb
      have hp := without_perm hnr.sorted.uniq hb
      show r.less - _ = pendSum _ m r.noms
      rw [hnr.less, pendSum_perm hp, pendSum_perm hp]
      simp only [pendSum, upd_same, pend_drop_self (hu _)]
      rw [pendSum_congr (reqs' := upd reqs b.owner (dropReq (reqs b.owner) m)) (reqs := reqs)]
      · omega
      · intro x hx
        rw [upd_ne _ _ (without_mem.1 hx).2]
    · rw [upd_ne _ _ e] at hm
      have hm' := h.some m r' hm
      refine ⟨hm'.sorted, hm'.ne, hm'.len, hm'.total, hm'.lock, ?_, hm'.min⟩
      rw [hm'.less]
      symm
      apply pendSum_congr
      intro b _
      by_cases e2 : b.owner = c
      · rw [e2, upd_same, pend_drop_ne (hu c) e]
      · rw [upd_ne _ _ e2]
  · intro m hm
    by_cases e : m = n
    · subst e; rw [upd_same] at hm; cases hm
    · rw [upd_ne _ _ e] at hm; exact h.none m hm
  · intro d
    by_cases e : d = c
    · subst e; rw [upd_same]; exact dropReq_uniq (hu d) n
    · rw [upd_ne _ _ e]; exact hu d
  · intro d
    by_cases e : d = c
    · subst e; rw [upd_same]; exact Nat.le_trans (dropReq_length _ _) (h.len d)
    · rw [upd_ne _ _ e]; exact h.len d
  · intro d q hq
    have hq0 : q ∈ reqs d := by
      by_cases e : d = c
      · subst e; rw [upd_same] at hq; exact ((dropReq_mem (hu d)).1 hq).1
      · rw [upd_ne _ _ e] at hq; exact hq
    obtain ⟨r', b, h1, h2⟩ := h.req d q hq0
    by_cases e : q.nominator = n
    · rw [e, hr] at h1
      injection h1 with h1
      subst h1
      exact ⟨{ r with less := r.less - pend (reqs c) n }, b, by rw [e, upd_same], h2⟩
    · exact ⟨r', b, by rw [upd_ne _ _ e]; exact h1, h2⟩

/-- Recording a request. -/
theorem NSide.push (h : NSide P noms nlock reqs) {n c : Nat} {r : Nomr} (hr : noms n = .some r) {b : Bond} (hb : b ∈ r.noms)
    (hbc : b.owner = c) {q : Req} (hqn : q.nominator = n) (hno : ∀ x ∈ reqs c, x.nominator ≠ n)
    (h1 : q.revoke = true → q.amount = b.amount) (h2 : q.revoke = false → q.amount + P.minPer ≤ b.amount)
    (hlen : (reqs c).length < P.maxPer) :
    NSide P (upd noms n (.some { r with less := r.less + q.amount })) nlock (upd reqs c (reqs c ++ [q])) := by
  have hu := h.uniq
  have hnr := h.some n r hr
  have hno' : ∀ x ∈ reqs c, x.nominator ≠ q.nominator := by rw [hqn]; exact hno
  refine ⟨?_, ?_, ?_, ?_, ?_⟩
  · intro m r' hm
    by_cases e : m = n
    · subst e
      rw [upd_same] at hm
      injection hm with hm
      subst hm
      refine ⟨hnr.sorted, hnr.ne, hnr.len, hnr.total, hnr.lock, ?_, hnr.min⟩
      subst hbc
      have hp := without_perm hnr.sorted.uniq hb
      show r.less + _ = pendSum _ m r.noms
      rw [hnr.less, pendSum_perm hp, pendSum_perm hp]
      simp only [pendSum, upd_same]
      rw [pendSum_congr (reqs' := upd reqs b.owner (reqs b.owner ++ [q])) (reqs := reqs)]
      · have : pend (reqs b.owner ++ [q]) m = q.amount := by rw [← hqn]; exact pend_push_self hno'
        rw [this, pend_none hno]
        omega
      · intro x hx
        rw [upd_ne _ _ (without_mem.1 hx).2]
    · rw [upd_ne _ _ e] at hm
      have hm' := h.some m r' hm
      refine ⟨hm'.sorted, hm'.ne, hm'.len, hm'.total, hm'.lock, ?_, hm'.min⟩
      rw [hm'.less]
      symm
      apply pendSum_congr
      intro b _
      by_cases e2 : b.owner = c
      · rw [e2, upd_same, pend_push_ne (by rw [hqn]; exact e)]
      · rw [upd_ne _ _ e2]
  · intro m hm
    by_cases e : m = n
    · subst e; rw [upd_same] at hm; cases hm
    · rw [upd_ne _ _ e] at hm; exact h.none m hm
  · intro d
    by_cases e : d = c
    · subst e; rw [upd_same]; exact (hu d).push hno'
    · rw [upd_ne _ _ e]; exact hu d
  · intro d
    by_cases e : d = c
    · subst e; rw [upd_same]; simp; omega
    · rw [upd_ne _ _ e]; exact h.len d
  · intro d x hx
    have hold : x ∈ reqs d → ReqOk P (upd noms n (.some { r with less := r.less + q.amount })) d x := by
      intro hx
      obtain ⟨r', b', g1, g2⟩ := h.req d x hx
      by_cases e : x.nominator = n
      · rw [e, hr] at g1
        injection g1 with g1
        subst g1
        exact ⟨{ r with less := r.less + q.amount }, b', by rw [e, upd_same], g2⟩
      · exact ⟨r', b', by rw [upd_ne _ _ e]; exact g1, g2⟩
    by_cases e : d = c
    · subst e
      rw [upd_same] at hx
      rcases List.mem_append.1 hx with hx | hx
      · exact hold hx
      · simp at hx
        subst hx
        exact ⟨{ r with less := r.less + x.amount }, b, by rw [hqn, upd_same], hb, hbc, h1, h2⟩
    · rw [upd_ne _ _ e] at hx; exact hold hx

/-- A new nomination: the record `r'` has one bond more. -/
theorem NSide.add (h : NSide P noms nlock reqs) {n c a : Nat} {r' : Nomr} (ha : P.minPer ≤ a)
    (hcase : (noms n = .none ∧ r' = ⟨[⟨c, a⟩], a, 0⟩ ∧ 1 ≤ P.maxPer) ∨
      (∃ r, noms n = .some r ∧ r.noms.length < P.maxPer ∧ (∀ b ∈ r.noms, b.owner ≠ c) ∧ KeySorted Bond.owner r'.noms ∧
        r'.noms.Perm (⟨c, a⟩ :: r.noms) ∧ r'.total = r.total + a ∧ r'.less = r.less)) :
    NSide P (upd noms n (.some r')) (upd nlock n r'.total) reqs := by
  have habs : ∀ q ∈ reqs c, q.nominator ≠ n := by
    apply h.pend_absent
    intro r hr
    rcases hcase with ⟨h1, _⟩ | ⟨r0, h1, _, h2, _⟩
    · rw [h1] at hr; cases hr
    · rw [h1] at hr; injection hr with hr; subst hr; exact h2
  have hsub : ∀ r, noms n = .some r → ∀ b ∈ r.noms, b ∈ r'.noms := by
    intro r hr b hb
    rcases hcase with ⟨h1, _⟩ | ⟨r0, h1, _, _, _, hp, _⟩
    · rw [h1] at hr; cases hr
    · rw [h1] at hr; injection hr with hr; subst hr; exact hp.mem_iff.2 (List.mem_cons_of_mem _ hb)
  refine ⟨?_, ?_, h.uniq, h.len, ?_⟩
  · intro m x hm
    by_cases e : m = n
    · subst e
      rw [upd_same] at hm
      injection hm with hm
      subst hm
      rw [upd_same]
      rcases hcase with ⟨h1, rfl, h2⟩ | ⟨r, hr, hl, habsb, hs, hp, ht, hless⟩
      · refine ⟨List.pairwise_singleton _ _, by simp, by simpa using h2, by simp, rfl, ?_, ?_⟩
        · simp [pendSum, pend_none habs]
        · intro b hb; simp at hb; subst hb; exact ha
      · have hnr := h.some m r hr
        refine ⟨hs, ?_, ?_, ?_, rfl, ?_, ?_⟩
        · intro e; rw [e] at hp; have := hp.length_eq; simp at this
        · rw [hp.length_eq]; simp; omega
        · rw [ht, hnr.total, sumAmt_perm hp]; simp; omega
        · rw [hless, hnr.less, pendSum_perm hp]; simp [pendSum, pend_none habs]
        · intro b hb
          rcases List.mem_cons.1 (hp.mem_iff.1 hb) with rfl | hb
          · exact ha
          · exact hnr.min b hb
    · rw [upd_ne _ _ e] at hm
      rw [upd_ne _ _ e]
      exact h.some m x hm
  · intro m hm
    by_cases e : m = n
    · subst e; rw [upd_same] at hm; cases hm
    · rw [upd_ne _ _ e] at hm; rw [upd_ne _ _ e]; exact h.none m hm
  · intro d q hq
    obtain ⟨r, b, g1, g2, g3⟩ := h.req d q hq
    by_cases e : q.nominator = n
    · rw [e] at g1
      exact ⟨r', b, by rw [e, upd_same], hsub r g1 b g2, g3⟩
    · exact ⟨r, b, by rw [upd_ne _ _ e]; exact g1, g2, g3⟩

/-- A nomination without a request goes away; the record goes when it was the last one. -/
theorem NSide.remove (h : NSide P noms nlock reqs) {n c : Nat} {r : Nomr} (hr : noms n = .some r) {b : Bond} (hb : b ∈ r.noms)
    (hbc : b.owner = c) (hno : ∀ x ∈ reqs c, x.nominator ≠ n) :
    NSide P (upd noms n (if without r.noms c = [] then .none else .some { r with noms := without r.noms c, total := r.total - b.amount }))
      (upd nlock n (r.total - b.amount)) reqs := by
  have hnr := h.some n r hr
  subst hbc
  have hp := without_perm hnr.sorted.uniq hb
  have hsum := sumAmt_perm hp
  rw [sumAmt_cons] at hsum
  have hlen := hp.length_eq
  simp only [List.length_cons] at hlen
  refine ⟨?_, ?_, h.uniq, h.len, ?_⟩
  · intro m x hm
    by_cases e : m = n
    · subst e
      rw [upd_same] at hm
      by_cases hw : without r.noms b.owner = []
      · rw [if_pos hw] at hm; cases hm
      · rw [if_neg hw] at hm
        injection hm with hm
        subst hm
        rw [upd_same]
        refine ⟨hnr.sorted.without _, hw, ?_, ?_, rfl, ?_, ?_⟩
        · have := hnr.len
          show (without r.noms b.owner).length ≤ _
          omega
        · show r.total - b.amount = _
          rw [hnr.total, hsum]; simp
        · show r.less = _
          rw [hnr.less, pendSum_perm hp]; simp [pendSum, pend_none hno]
        · intro x hx; exact hnr.min x (without_mem.1 hx).1
    · rw [upd_ne _ _ e] at hm
      rw [upd_ne _ _ e]
      exact h.some m x hm
  · intro m hm
    by_cases e : m = n
    · subst e
      rw [upd_same] at hm ⊢
      by_cases hw : without r.noms b.owner = []
      · rw [hw] at hsum
        rw [hnr.total, hsum]; simp
      · rw [if_neg hw] at hm; cases hm
    · rw [upd_ne _ _ e] at hm; rw [upd_ne _ _ e]; exact h.none m hm
  · intro d q hq
    obtain ⟨r', b', g1, g2, g3, g4⟩ := h.req d q hq
    by_cases e : q.nominator = n
    · rw [e, hr] at g1
      injection g1 with g1
      subst g1
      have hd : d ≠ b.owner := by intro e2; subst e2; exact hno q hq e
      have hmem : b' ∈ without r.noms b.owner := without_mem.2 ⟨g2, by rw [g3]; exact hd⟩
      have hw : without r.noms b.owner ≠ [] := by intro e2; rw [e2] at hmem; cases hmem
      refine ⟨{ r with noms := without r.noms b.owner, total := r.total - b.amount }, b', ?_, hmem, g3, g4⟩
      rw [e, upd_same, if_neg hw]
    · exact ⟨r', b', by rw [upd_ne _ _ e]; exact g1, g2, g3, g4⟩

/-- The amount of a nomination changes, by `f`. -/
theorem NSide.adjust (h : NSide P noms nlock reqs) {n c : Nat} {r : Nomr} (hr : noms n = .some r) {b : Bond} (hb : b ∈ r.noms)
    (hbc : b.owner = c) {f : Nat → Nat} {t : Nat} (ht : t + b.amount = r.total + f b.amount) (hmin : P.minPer ≤ f b.amount)
    (hreq : ∀ q ∈ reqs c, q.nominator = n → q.revoke = false ∧ q.amount + P.minPer ≤ f b.amount) :
    NSide P (upd noms n (.some { r with noms := adjust r.noms c f, total := t })) (upd nlock n t) reqs := by
  have hnr := h.some n r hr
  subst hbc
  have hu := hnr.sorted.uniq
  have hp := without_perm hu hb
  have hsum := sumAmt_perm hp
  rw [sumAmt_cons] at hsum
  have hsum2 := sum_adjust hu hb f
  refine ⟨?_, ?_, h.uniq, h.len, ?_⟩
  · intro m x hm
    by_cases e : m = n
    · subst e
      rw [upd_same] at hm
      injection hm with hm
      subst hm
      rw [upd_same]
      refine ⟨hnr.sorted.adjust _ _, ?_, ?_, ?_, rfl, ?_, ?_⟩
      · intro e2
        have := congrArg List.length e2
        simp only [adjust_length, List.length_nil] at this
        exact hnr.ne (List.length_eq_zero_iff.1 this)
      · simp only [adjust_length]; exact hnr.len
      · show t = _
        rw [hsum2]; have := hnr.total; omega
      · show r.less = _
        rw [hnr.less]; exact pendSum_map (adjust_owner _ _ _).symm
      · intro x hx
        obtain ⟨y, hy, ⟨_, rfl⟩ | ⟨e3, rfl⟩⟩ := adjust_mem hx
        · exact hnr.min _ hy
        · rw [hu.eq hy hb e3]; exact hmin
    · rw [upd_ne _ _ e] at hm
      rw [upd_ne _ _ e]
      exact h.some m x hm
  · intro m hm
    by_cases e : m = n
    · subst e; rw [upd_same] at hm; cases hm
    · rw [upd_ne _ _ e] at hm; rw [upd_ne _ _ e]; exact h.none m hm
  · intro d q hq
    obtain ⟨r', b', g1, g2, g3, g4⟩ := h.req d q hq
    by_cases e : q.nominator = n
    · rw [e, hr] at g1
      injection g1 with g1
      subst g1
      by_cases hd : d = b.owner
      · subst hd
        obtain ⟨a1, a2⟩ := hreq q hq e
        refine ⟨{ r with noms := Verif.Staking.adjust r.noms b.owner f, total := t }, ⟨b.owner, f b.amount⟩, ?_, ?_, rfl, ?_, ?_⟩
        · rw [e, upd_same]
        · exact (adjust_split hu hb f).mem_iff.2 (List.mem_cons_self ..)
        · intro hh; rw [a1] at hh; cases hh
        · intro _; exact a2
      · refine ⟨{ r with noms := Verif.Staking.adjust r.noms b.owner f, total := t }, b', ?_, ?_, g3, g4⟩
        · rw [e, upd_same]
        · refine (adjust_split hu hb f).mem_iff.2 (List.mem_cons_of_mem _ (without_mem.2 ⟨g2, by rw [g3]; exact hd⟩))
    · exact ⟨r', b', by rw [upd_ne _ _ e]; exact g1, g2, g3, g4⟩

end Verif.Staking
