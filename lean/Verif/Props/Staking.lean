import Verif.Lemmas.StakingStep

/-!
# C41–C44: the staking ledger

Statements are about states reached by any history of calls from an empty ledger. The specification speaks of lists of bonds
(an account and an amount), their sums, and balance locks.
-/

namespace Verif.Staking

/-! ### Specification -/

/-- Constants that make sense: the lists have room for at least one nomination and fit into the stored vectors (300 entries), a
nominator may have at least one nomination, and a nomination is at least one unit. -/
structure Par.Sane (P : Par) : Prop where
  top : 1 ≤ P.cfg.maxTop ∧ P.cfg.maxTop ≤ 300
  bottom : 1 ≤ P.cfg.maxBottom ∧ P.cfg.maxBottom ≤ 300
  per : 1 ≤ P.maxPer ∧ P.maxPer ≤ 300
  min : 1 ≤ P.minPer

/-- A state some history of calls (some of which may be refused) reaches; the minimum total stake is at least the minimum
nomination at genesis, as the setting's own check demands later. -/
def Reach (P : Par) (s : St) : Prop :=
  ∃ delay minTotal minCollator free ops, P.minPer ≤ minTotal ∧ s = run P (St.init delay minTotal minCollator free) ops

/-- The sum of the amounts. -/
def bondSum (l : List Bond) : Nat := (l.map (fun b => b.amount)).sum

/-- What a collator's two lists must look like. -/
structure ListsOk (maxTop maxBottom : Nat) (top bottom : List Bond) : Prop where
  once : ((top ++ bottom).map (fun b => b.owner)).Nodup
  topSorted : top.Pairwise (fun a b => b.amount ≤ a.amount)
  bottomSorted : bottom.Pairwise (fun a b => b.amount ≤ a.amount)
  topSize : top.length ≤ maxTop
  bottomSize : bottom.length ≤ maxBottom
  bottomOnlyWhenFull : bottom ≠ [] → top.length = maxTop
  bottomBelow : ∀ b ∈ bottom, ∀ t ∈ top, b.amount ≤ t.amount

/-! ### Helpers -/

theorem Par.Sane.ok {P : Par} (h : P.Sane) : P.Ok :=
  ⟨⟨by have := h.top; omega, by have := h.bottom; omega, by have := h.top; unfold vecCap; omega, by have := h.bottom; unfold vecCap; omega⟩,
   by have := h.per; unfold vecCap; omega, h.min⟩

theorem Reach.inv {P : Par} (hP : P.Sane) {s : St} (h : Reach P s) : Inv P s := by
  obtain ⟨d, mt, mc, fr, ops, hm, rfl⟩ := h
  exact run_inv hP.ok hP.per.1 (init_inv hm) ops

theorem Reach.step {P : Par} {s : St} (h : Reach P s) (op : Op) : Reach P (step P s op) := by
  obtain ⟨d, mt, mc, fr, ops, hm, rfl⟩ := h
  exact ⟨d, mt, mc, fr, ops ++ [op], hm, (run_snoc ..).symm⟩

/-! ### C41 -/

/-- C41: a collator's lists stay partitioned, ordered and within their caps. -/
theorem C41_lists_stay_partitioned_and_ordered (P : Par) (hP : P.Sane) (s : St) (hs : Reach P s) (c : Nat) (r : CRec)
    (hr : s.cands c = some r) : ListsOk P.cfg.maxTop P.cfg.maxBottom r.top.list r.bottom.list := by
  have h := (hs.inv hP).g.c.inv c r hr
  exact ⟨h.uniq, h.shape.topDesc, h.shape.botDesc, h.shape.topLen, h.shape.botLen, h.shape.full, h.shape.cross⟩

/-- C41: the lists contain exactly the nominations the nominators' own records have, with the same amounts. -/
theorem C41_lists_agree_with_nominators (P : Par) (hP : P.Sane) (s : St) (hs : Reach P s) (n c a : Nat) :
    (∃ r, s.cands c = some r ∧ (⟨n, a⟩ : Bond) ∈ r.top.list ++ r.bottom.list) ↔
    (∃ q, s.noms n = some q ∧ (⟨c, a⟩ : Bond) ∈ q.noms) :=
  (hs.inv hP).g.link n c a

/-- C41: nobody is a candidate and a nominator at the same time. -/
theorem C41_candidate_or_nominator (P : Par) (hP : P.Sane) (s : St) (hs : Reach P s) (n : Nat) :
    s.cands n = none ∨ s.noms n = none := by
  cases h : s.noms n with
  | none => exact Or.inr rfl
  | some r => exact Or.inl ((hs.inv hP).g.excl n (by rw [h]; rfl))

/-! ### C42 -/

/-- C42: the counted stake is the own bond plus the top nominations, the count is the number of nominations, and the cached total
of the top nominations is exact. -/
theorem C42_counted_stake (P : Par) (hP : P.Sane) (s : St) (hs : Reach P s) (c : Nat) (r : CRec) (hr : s.cands c = some r) :
    r.info.totalCounted = r.info.bond + bondSum r.top.list ∧ r.info.count = r.top.list.length + r.bottom.list.length ∧
    r.top.total = bondSum r.top.list := by
  have h := (hs.inv hP).g.c.inv c r hr
  exact ⟨h.cache.counted, h.cache.count, h.cache.topTotal⟩

/-- C42: the candidate pool lists exactly the active candidates, each with its counted stake, sorted by account, within its cap. -/
theorem C42_pool_is_the_active_candidates (P : Par) (hP : P.Sane) (s : St) (hs : Reach P s) :
    (∀ c x, (⟨c, x⟩ : Bond) ∈ s.pool ↔ ∃ r, s.cands c = some r ∧ r.info.status = .active ∧ x = r.info.totalCounted) ∧
    s.pool.Pairwise (fun a b => a.owner < b.owner) ∧ s.pool.length ≤ P.cfg.maxPool := by
  have h := (hs.inv hP).g.c
  refine ⟨?_, h.sorted, h.len⟩
  intro c x
  constructor
  · intro hx
    obtain ⟨r, hr⟩ := Option.isSome_iff_exists.1 (h.dom _ hx)
    have hp := (h.inv c r hr).pool
    have hact : r.info.isActive = true := by
      cases he : r.info.isActive with
      | true => rfl
      | false => exact absurd rfl (hp.no he _ hx)
    have hy := hp.yes hact
    have : (⟨c, x⟩ : Bond) = ⟨c, r.info.totalCounted⟩ := h.sorted.uniq.eq hx hy rfl
    exact ⟨r, hr, by unfold Info.isActive at hact; simpa using hact, by injection this⟩
  · rintro ⟨r, hr, hact, rfl⟩
    exact (h.inv c r hr).pool.yes (by show (r.info.status == .active) = true; rw [hact]; rfl)

/-- C42: a candidate's balance lock is its own bond; nobody else has such a lock. -/
theorem C42_candidate_lock (P : Par) (hP : P.Sane) (s : St) (hs : Reach P s) (c : Nat) :
    (∀ r, s.cands c = some r → s.clock c = r.info.bond) ∧ (s.cands c = none → s.clock c = 0) := by
  have h := (hs.inv hP).g.c.lock c
  constructor
  · intro r hr; rw [h, hr]; rfl
  · intro hr; rw [h, hr]; rfl

/-! ### C43 -/

/-- C43, the part that holds: the cached total of the bottom nominations is never below the sum, and the excess is what decreases
of bottom nominations took away (`leak` is not part of the code's state; it counts those decreases). Missing: equality, which
fails after such a decrease. -/
theorem C43_bottom_total_partial (P : Par) (hP : P.Sane) (s : St) (hs : Reach P s) (c : Nat) (r : CRec) (hr : s.cands c = some r) :
    bondSum r.bottom.list ≤ r.bottom.total ∧ r.bottom.total = bondSum r.bottom.list + r.leak := by
  have h : r.bottom.total = bondSum r.bottom.list + r.leak := ((hs.inv hP).g.c.inv c r hr).cache.botTotal
  exact ⟨by omega, h⟩

/-- C43, the part that holds when a candidate leaves: the system's total falls by its bond, all its nominations and the excess. -/
theorem C43_released_on_exit_partial (P : Par) (hP : P.Sane) (s s' : St) (hs : Reach P s) (c hint : Nat)
    (h : call P s (.executeLeave c hint) = some s') :
    ∃ r, s.cands c = some r ∧ s'.cands c = none ∧ s'.clock c = 0 ∧
      s'.total = s.total - (r.info.bond + bondSum r.top.list + bondSum r.bottom.list + r.leak) := by
  have hi := (hs.inv hP).g
  obtain ⟨r, hr, hl⟩ := executeLeave_ok hP.ok hi h
  have hc := (hi.c.inv c r hr).cache
  have h1 : r.top.total = bondSum r.top.list := hc.topTotal
  have h2 : r.bottom.total = bondSum r.bottom.list + r.leak := hc.botTotal
  refine ⟨r, hr, hl.gone, hl.lock, ?_⟩
  rw [hl.total, h1, h2, Nat.add_assoc (r.info.bond + bondSum r.top.list)]

/-- Small constants for examples: one top and two bottom places. -/
def smallPar : Par := ⟨⟨1, 2, 10⟩, 3, 1, true⟩

/-- Candidate 1 with two nominators, of which 3 is at the bottom, decreases and executes after two eras. -/
def leakHistory : List Op :=
  [.join 1 10 10 true, .nominate 2 1 50 10 10, .nominate 3 1 20 10 10, .scheduleDecrease 3 1 5, .newEra, .newEra, .executeRequest 3 1]

/-- The counterexample: after these calls the bottom list holds 15, its cached total is 20. -/
theorem C43_bottom_total_can_be_wrong :
    smallPar.Sane ∧ ((run smallPar (St.init 2 1 1 (fun _ => 1000)) leakHistory).cands 1).map
      (fun r => (bondSum r.bottom.list, r.bottom.total)) = some (15, 20) :=
  ⟨⟨by decide, by decide, by decide, by decide⟩, by decide +kernel⟩

/-- The consequence: the candidate leaves, all stake is gone, and the system total falls below what candidate 9 has bonded. -/
theorem C43_total_too_low_after_exit :
    (fun s : St => (s.total, (s.cands 9).map (fun r => r.info.bond), (s.cands 1).isSome))
      (run smallPar (St.init 2 1 1 (fun _ => 1000))
        (.join 9 100 10 true :: leakHistory ++ [.scheduleLeave 1 10, .newEra, .newEra, .executeLeave 1 10])) =
    (95, some 100, false) := by decide +kernel

/-! ### C44 -/

/-- C44: a nominator's recorded total and its balance lock are the sum of its bonds; an account without a record has no lock. -/
theorem C44_lock_is_sum_of_bonds (P : Par) (hP : P.Sane) (s : St) (hs : Reach P s) (n : Nat) :
    (∀ r, s.noms n = some r → r.total = bondSum r.noms ∧ s.nlock n = bondSum r.noms) ∧ (s.noms n = none → s.nlock n = 0) := by
  have h := (hs.inv hP).g.n
  refine ⟨?_, h.none n⟩
  intro r hr
  have hr' := h.some n r hr
  exact ⟨hr'.total, hr'.lock.trans hr'.total⟩

/-- C44: a record has between one nomination and the maximum, at most one per collator, and each is at least the minimum. -/
theorem C44_every_bond_at_least_minimum (P : Par) (hP : P.Sane) (s : St) (hs : Reach P s) (n : Nat) (r : Nomr)
    (hr : s.noms n = some r) :
    r.noms ≠ [] ∧ r.noms.length ≤ P.maxPer ∧ (r.noms.map (fun b => b.owner)).Nodup ∧ ∀ b ∈ r.noms, P.minPer ≤ b.amount := by
  have h := (hs.inv hP).g.n.some n r hr
  exact ⟨h.ne, h.len, h.sorted.uniq, h.min⟩

/-- C44: scheduling a decrease that leaves less than the minimum nomination, or less than the minimum total, is refused. -/
theorem C44_decrease_below_minimum_refused (P : Par) (s : St) (n c less a : Nat) (r : Nomr) (hr : s.noms n = some r)
    (hb : (⟨c, a⟩ : Bond) ∈ r.noms) (hu : (r.noms.map (fun b => b.owner)).Nodup)
    (h : a < less + P.minPer ∨ r.total - r.less < less + s.minTotal) (hl : 1 ≤ less) :
    call P s (.scheduleDecrease n c less) = none := by
  show scheduleDecrease P s n c less = none
  unfold scheduleDecrease
  rw [hr]
  dsimp only
  by_cases hq : (s.reqs c).any (Req.by n) = true
  · rw [if_pos hq]
  rw [if_neg hq, findOwner_mem (d := ⟨c, a⟩) (show Uniq r.noms from hu) hb]
  dsimp only
  by_cases h1 : a ≤ less
  · rw [if_pos h1]
  rw [if_neg h1]
  by_cases h2 : a - less < P.minPer
  · rw [if_pos h2]
  rw [if_neg h2, if_pos (by omega)]

/-- C44: the amount a nominator has pending is the sum over its collators of what is scheduled there, and is at most its total. -/
theorem C44_pending_is_scheduled (P : Par) (hP : P.Sane) (s : St) (hs : Reach P s) (n : Nat) (r : Nomr) (hr : s.noms n = some r) :
    r.less = (r.noms.map (fun b => (((s.reqs b.owner).find? (fun q => decide (q.nominator = n))).map (fun q => q.amount)).getD 0)).sum ∧
    r.less ≤ r.total := by
  have h := (hs.inv hP).g.n
  have hr' := h.some n r hr
  have hsum : ∀ l : List Bond, pendSum s.reqs n l =
      (l.map (fun b => (((s.reqs b.owner).find? (fun q => decide (q.nominator = n))).map (fun q => q.amount)).getD 0)).sum := by
    intro l
    induction l with
    | nil => rfl
    | cons b l ih =>
      rw [List.map_cons, List.sum_cons, ← ih]
      rfl
  refine ⟨by rw [hr'.less]; exact hsum _, ?_⟩
  rw [hr'.less, hr'.total]
  have key : ∀ l : List Bond, (∀ b ∈ l, b ∈ r.noms) → pendSum s.reqs n l ≤ sumAmt l := by
    intro l
    induction l with
    | nil => intro _; exact Nat.le_refl _
    | cons b l ih =>
      intro hl
      have h1 := ih (fun x hx => hl x (List.mem_cons_of_mem _ hx))
      have h2 : pend (s.reqs b.owner) n ≤ b.amount := by
        unfold pend
        cases hq : findReq (s.reqs b.owner) n with
        | none => exact Nat.zero_le _
        | some q =>
          obtain ⟨hqm, hqn⟩ := findReq_some hq
          obtain ⟨r0, b0, g1, g2, g3, g4, g5⟩ := h.req _ q hqm
          rw [hqn, hr] at g1
          injection g1 with g1
          subst g1
          have hb : b0 = b := hr'.sorted.uniq.eq g2 (hl b List.mem_cons_self) g3
          subst hb
          show q.amount ≤ b0.amount
          cases hrev : q.revoke with
          | true => rw [g4 hrev]; exact Nat.le_refl _
          | false => have := g5 hrev; omega
      show pend (s.reqs b.owner) n + pendSum s.reqs n l ≤ b.amount + sumAmt l
      omega
  exact key r.noms (fun _ h => h)

/-- C44: an executed decrease leaves the nominator with at least the minimum total. -/
theorem C44_executed_decrease_leaves_minimum (P : Par) (hP : P.Sane) (s s' : St) (hs : Reach P s) (n c : Nat) (q : Req)
    (hq : q ∈ s.reqs c) (hn : q.nominator = n) (hrev : q.revoke = false) (h : call P s (.executeRequest n c) = some s') :
    ∃ r', s'.noms n = some r' ∧ s.minTotal ≤ bondSum r'.noms ∧ ∃ a, (⟨c, a⟩ : Bond) ∈ r'.noms ∧ P.minPer ≤ a := by
  have hi := (hs.inv hP).g
  obtain ⟨q', he⟩ := executeRequest_ok hP.ok hi h
  have e : q' = q := RUniq.eq (hi.n.uniq c) he.mem hq (he.by_.trans hn.symm)
  subst e
  obtain ⟨r', h1, h2⟩ := he.minKept hrev
  obtain ⟨a, g1, _, _, g4, g5⟩ := he.bond
  have hr' := he.inv.n.some n r' h1
  refine ⟨r', h1, by rw [show bondSum r'.noms = r'.total from hr'.total.symm]; exact h2, a - q'.amount, ?_, ?_⟩
  · obtain ⟨r1, e1, e2⟩ := (g5 n c (a - q'.amount)).2 (Or.inl ⟨rfl, rfl, hrev, rfl⟩)
    rw [h1] at e1
    injection e1 with e1
    subst e1
    exact e2
  · have := g4 hrev; omega

/-! ### The hypotheses are met -/

/-- The production constants. -/
def prodPar : Par := ⟨⟨300, 50, 100⟩, 100, 1, false⟩

example : prodPar.Sane := ⟨by decide, by decide, by decide, by decide⟩

example : Reach smallPar (run smallPar (St.init 2 1 1 (fun _ => 1000)) leakHistory) := ⟨_, _, _, _, _, by decide, rfl⟩

example : ((run smallPar (St.init 2 1 1 (fun _ => 1000)) leakHistory).cands 1).map (fun r => (r.top.list, r.bottom.list, r.info.totalCounted)) =
    some ([⟨2, 50⟩], [⟨3, 15⟩], 60) := by decide +kernel

example : (run smallPar (St.init 2 1 1 (fun _ => 1000)) leakHistory).nlock 3 = 15 := by decide +kernel

end Verif.Staking
