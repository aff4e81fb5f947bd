import Verif.Props.StakingPayoutCases

/-!
# C82: the growth reported to Ethereum is what was set aside

The specification reads the eras for which a reward was set aside off the history (`bookings`), groups them into periods
(`periodsOf`), and the theorems say that the stored and the published figures are the sums over the groups.
-/

namespace Verif.Staking

/-! ### Specification -/

/-- An era for which a reward was set aside: the stake recorded for it and the amount. -/
structure Booking where
  era : Nat
  stake : Nat
  amount : Nat
deriving DecidableEq, Repr

/-- What a step from `F` to `F'` sets aside: a block that starts an era sets aside a reward for the era `payDelay` eras earlier, if
somebody authored a block in it. -/
def booked (E : EPar) (F : Full) (op : EOp) (F' : Full) : List Booking :=
  match op with
  | .block _ _ _ _ =>
    if F'.led.era = F.led.era + 1 ∧ E.par.enabled = true ∧ E.payDelay < F'.led.era ∧
        (F.points (F'.led.era - E.payDelay) ≠ 0 ∨ F'.led.era - E.payDelay = F.led.era) then
      [⟨F'.led.era - E.payDelay, F.staked (F'.led.era - E.payDelay), F'.aside (F'.led.era - E.payDelay)⟩]
    else []
  | _ => []

/-- What a history sets aside, in order. -/
def bookingsFrom (E : EPar) (F : Full) : List EOp → List Booking
  | [] => []
  | op :: ops => booked E F op (eStep E F op) ++ bookingsFrom E (eStep E F op) ops

/-- A booking joins the last period unless that one started `n` or more eras ago. -/
def addTo (n : Nat) (ps : List (List Booking)) (b : Booking) : List (List Booking) :=
  match ps.getLast? with
  | some (f :: rest) => if n ≤ b.era - f.era then ps ++ [[b]] else ps.dropLast ++ [f :: rest ++ [b]]
  | _ => ps ++ [[b]]

/-- The growth periods: the first is number 1. -/
def periodsOf (n : Nat) (bs : List Booking) : List (List Booking) := bs.foldl (addTo n) []

/-- The sum of the amounts, and of the stakes. -/
def amountOf (p : List Booking) : Nat := (p.map Booking.amount).sum
def stakeOf (p : List Booking) : Nat := (p.map Booking.stake).sum

/-! ### Invariant -/

structure Books (n : Nat) (ps : List (List Booking)) (F : Full) : Prop where
  index : F.gpIndex = ps.length
  start : ∀ p, ps.getLast? = some p → ∃ f rest, p = f :: rest ∧ f.era = F.gpStart
  recs : ∀ i p, ps[i]? = some p → F.processed (i + 1) = false →
    ∃ g, F.growth (i + 1) = some g ∧ g.accs = p.length ∧ g.stake = stakeOf p ∧ g.reward = amountOf p
  sent : ∀ x ∈ F.sent, 1 ≤ x.period ∧ x.period < ps.length ∧ ∃ p, ps[x.period - 1]? = some p ∧ x.reward = amountOf p ∧
    x.average = stakeOf p / p.length
  last : ∀ x ∈ F.sent, x.period ≤ F.lastTriggered
  order : (F.sent.map Sent.period).Pairwise (· < ·)
  fresh : ∀ p g, F.lastTriggered < p → F.growth p = some g → g.txId = none ∧ g.triggered = none
  pubd : ∀ tx p, F.published tx = some p → p ≤ F.lastTriggered

structure BooksSame (F F' : Full) : Prop where
  growth : F'.growth = F.growth
  gpIndex : F'.gpIndex = F.gpIndex
  gpStart : F'.gpStart = F.gpStart
  processed : F'.processed = F.processed
  sent : F'.sent = F.sent
  last : F'.lastTriggered = F.lastTriggered
  published : F'.published = F.published

theorem BooksSame.refl (F : Full) : BooksSame F F := ⟨rfl, rfl, rfl, rfl, rfl, rfl, rfl⟩

theorem BooksSame.trans {F G H : Full} (h : BooksSame F G) (g : BooksSame G H) : BooksSame F H :=
  ⟨g.growth.trans h.growth, g.gpIndex.trans h.gpIndex, g.gpStart.trans h.gpStart, g.processed.trans h.processed, g.sent.trans h.sent,
   g.last.trans h.last, g.published.trans h.published⟩

theorem Books.same {n : Nat} {ps : List (List Booking)} {F F' : Full} (b : Books n ps F) (h : BooksSame F F') : Books n ps F' := by
  refine ⟨?_, ?_, ?_, ?_, ?_, ?_, ?_, ?_⟩
  · rw [h.gpIndex]; exact b.index
  · rw [h.gpStart]; exact b.start
  · rw [h.growth, h.processed]; exact b.recs
  · rw [h.sent]; exact b.sent
  · rw [h.sent, h.last]; exact b.last
  · rw [h.sent]; exact b.order
  · rw [h.last, h.growth]; exact b.fresh
  · rw [h.published, h.last]; exact b.pubd

variable {E : EPar} {F F' : Full} {pub : Nat → Option Nat} {n : Nat} {ps : List (List Booking)}

/-- Replacing a record by one with the same figures. -/
theorem Books.setRec {p : Nat} {g g' : GrowthRec} {F' : Full} (b : Books n ps F) (hg : F.growth p = some g)
    (h1 : g'.accs = g.accs) (h2 : g'.stake = g.stake) (h3 : g'.reward = g.reward) (e1 : F'.growth = upd F.growth p (some g'))
    (e2 : F'.processed = F.processed) : ∀ i q, ps[i]? = some q → F'.processed (i + 1) = false →
    ∃ g, F'.growth (i + 1) = some g ∧ g.accs = q.length ∧ g.stake = stakeOf q ∧ g.reward = amountOf q := by
  intro i q hq hp
  rw [e2] at hp
  obtain ⟨k, k1, k2, k3, k4⟩ := b.recs i q hq hp
  rw [e1]
  by_cases e : i + 1 = p
  · rw [e, hg] at k1
    injection k1 with k1
    subst k1
    exact ⟨g', by rw [e, upd_same], h1.trans k2, h2.trans k3, h3.trans k4⟩
  · exact ⟨k, by rw [upd_ne _ _ e]; exact k1, k2, k3, k4⟩

theorem triggerStep_books (b : Books n ps F) {p : Nat} (h1 : F.lastTriggered < p) (h2 : p < ps.length) :
    Books n ps (triggerStep pub F p) ∧ (triggerStep pub F p).lastTriggered ≤ p := by
  unfold triggerStep
  cases hg : F.growth p with
  | none => exact ⟨b, by show F.lastTriggered ≤ p; omega⟩
  | some r =>
    dsimp only
    by_cases c1 : F.processed p = true ∨ r.txId.isSome = true ∨ r.triggered.isSome = true
    · rw [if_pos c1]; exact ⟨b, by omega⟩
    rw [if_neg c1]
    by_cases c2 : r.accs = 0 ∨ r.stake = 0 ∨ r.reward = 0
    · rw [if_pos c2]
      refine ⟨⟨b.index, b.start, b.setRec (g' := { r with txId := some 0 }) hg rfl rfl rfl rfl rfl, b.sent, ?_, b.order, ?_, ?_⟩, Nat.le_refl _⟩
      · intro x hx
        have := b.last x hx
        show x.period ≤ p
        omega
      · intro q g hq hgq
        have hq : p < q := hq
        have hgq : upd F.growth p _ q = some g := hgq
        rw [upd_ne _ _ (by omega)] at hgq
        exact b.fresh q g (by omega) hgq
      · intro tx q hq
        have := b.pubd tx q hq
        show q ≤ p
        omega
    rw [if_neg c2]
    cases hpub : pub p with
    | none => exact ⟨b, by show F.lastTriggered ≤ p; omega⟩
    | some tx =>
      dsimp only
      refine ⟨⟨b.index, b.start, b.setRec (g' := { r with txId := some tx }) hg rfl rfl rfl rfl rfl, ?_, ?_, ?_, ?_, ?_⟩, Nat.le_refl _⟩
      · intro x hx
        rcases List.mem_append.1 hx with hx | hx
        · exact b.sent x hx
        · rw [List.mem_singleton.1 hx]
          have hp : F.processed p = false := by
            cases hc : F.processed p with
            | false => rfl
            | true => exact absurd (Or.inl hc) c1
          have hlt : p - 1 < ps.length := by omega
          obtain ⟨k, k1, k2, k3, k4⟩ := b.recs (p - 1) ps[p - 1] (List.getElem?_eq_getElem hlt) (by rw [Nat.sub_add_cancel (by omega)]; exact hp)
          rw [Nat.sub_add_cancel (by omega), hg] at k1
          injection k1 with k1
          subst k1
          refine ⟨by show 1 ≤ p; omega, h2, _, List.getElem?_eq_getElem hlt, k4, ?_⟩
          show r.stake / r.accs = _
          rw [k2, k3]
      · intro x hx
        show x.period ≤ p
        rcases List.mem_append.1 hx with hx | hx
        · have := b.last x hx; omega
        · rw [List.mem_singleton.1 hx]; exact Nat.le_refl p
      · show ((F.sent ++ [_]).map Sent.period).Pairwise (· < ·)
        rw [List.map_append, List.pairwise_append]
        refine ⟨b.order, by simp, ?_⟩
        intro a ha c hc
        obtain ⟨x, hx, rfl⟩ := List.mem_map.1 ha
        have hc : c = p := by simpa using hc
        have := b.last x hx
        omega
      · intro q g hq hgq
        have hq : p < q := hq
        have hgq : upd F.growth p _ q = some g := hgq
        rw [upd_ne _ _ (by omega)] at hgq
        exact b.fresh q g (by omega) hgq
      · intro t q hq
        have hq : upd F.published tx (some p) t = some q := hq
        show q ≤ p
        by_cases e : t = tx
        · rw [e, upd_same] at hq; injection hq with hq; omega
        · rw [upd_ne _ _ e] at hq
          have := b.pubd t q hq
          omega

theorem foldTrigger_books (l : List Nat) (b : Books n ps F) (hs : l.Pairwise (· < ·)) (h1 : ∀ p ∈ l, F.lastTriggered < p)
    (h2 : ∀ p ∈ l, p < ps.length) : Books n ps (l.foldl (triggerStep pub) F) := by
  induction l generalizing F with
  | nil => exact b
  | cons p l ih =>
    rw [List.pairwise_cons] at hs
    obtain ⟨k1, k2⟩ := triggerStep_books (pub := pub) b (h1 p (List.mem_cons_self ..)) (h2 p (List.mem_cons_self ..))
    exact ih k1 hs.2 (fun q hq => by have := hs.1 q hq; omega) (fun q hq => h2 q (List.mem_cons_of_mem _ hq))

theorem untriggered_mem {latest p : Nat} : p ∈ untriggered E F latest ↔
    F.lastTriggered < p ∧ p ≤ latest ∧ p ≤ F.lastTriggered + E.maxGrowths := by
  unfold untriggered
  by_cases h : latest - F.lastTriggered ≤ E.maxGrowths
  · rw [List.take_range'_of_length_le h, List.mem_range'_1]
    omega
  · rw [List.take_range'_of_length_ge (by omega), List.mem_range'_1]
    omega

theorem updatePayout_books (b : Books E.erasPerGrowth ps F) (era staked reward points : Nat) (scores : List (Nat × Nat)) :
    Books E.erasPerGrowth (addTo E.erasPerGrowth ps ⟨era, staked, reward⟩) (updatePayout E pub F era staked reward points scores) := by
  unfold updatePayout
  by_cases h : newPeriod E F era = true
  · rw [if_pos h]
    have hadd : addTo E.erasPerGrowth ps ⟨era, staked, reward⟩ = ps ++ [[⟨era, staked, reward⟩]] := by
      unfold addTo
      unfold newPeriod at h
      have h := of_decide_eq_true h
      split
      · rename_i f rest hl
        obtain ⟨f', rest', e1, e2⟩ := b.start _ hl
        cases e1
        rw [if_pos]
        rcases h with h | h
        · rw [b.index] at h
          rw [List.length_eq_zero_iff.1 h] at hl
          cases hl
        · rw [e2]; exact h
      · rfl
    rw [hadd]
    unfold triggerGrowths
    refine foldTrigger_books _ ?_ ?_ ?_ ?_
    · refine ⟨?_, ?_, ?_, ?_, b.last, b.order, ?_, b.pubd⟩
      · show F.gpIndex + 1 = _
        rw [b.index]; simp
      · intro p hp
        rw [List.getLast?_concat] at hp
        cases hp
        exact ⟨_, _, rfl, rfl⟩
      · intro i p hp hpr
        show ∃ g, upd F.growth (F.gpIndex + 1) _ (i + 1) = some g ∧ _
        by_cases e : i = ps.length
        · subst e
          rw [List.getElem?_concat_length] at hp
          cases hp
          refine ⟨_, by rw [b.index, upd_same], rfl, ?_, ?_⟩ <;> simp [stakeOf, amountOf]
        · have hlt : i < ps.length := by
            have := (List.getElem?_eq_some_iff.1 hp).1
            simp at this; omega
          rw [List.getElem?_append_left hlt] at hp
          rw [upd_ne _ _ (by rw [b.index]; omega)]
          exact b.recs i p hp hpr
      · intro x hx
        obtain ⟨k1, k2, p, k3, k4⟩ := b.sent x hx
        refine ⟨k1, by simp; omega, p, ?_, k4⟩
        rw [List.getElem?_append_left (by omega)]
        exact k3
      · intro q g hq hgq
        have hgq : upd F.growth (F.gpIndex + 1) _ q = some g := hgq
        by_cases e : q = F.gpIndex + 1
        · rw [e, upd_same] at hgq; injection hgq with hgq; subst hgq; exact ⟨rfl, rfl⟩
        · rw [upd_ne _ _ e] at hgq; exact b.fresh q g hq hgq
    · unfold untriggered
      exact List.Pairwise.sublist (List.take_sublist ..) List.pairwise_lt_range'
    · intro p hp
      exact (untriggered_mem.1 hp).1
    · intro p hp
      have := (untriggered_mem.1 hp).2.1
      rw [b.index] at this
      simp; omega
  · rw [if_neg h]
    unfold newPeriod at h
    have h : ¬ (F.gpIndex = 0 ∨ E.erasPerGrowth ≤ era - F.gpStart) := by simpa using h
    have hne : ps ≠ [] := by
      intro e; rw [b.index, e] at h; exact h (Or.inl rfl)
    obtain ⟨f, rest, e1, e2⟩ := b.start _ (List.getLast?_eq_some_getLast hne)
    have hadd : addTo E.erasPerGrowth ps ⟨era, staked, reward⟩ = ps.dropLast ++ [f :: rest ++ [⟨era, staked, reward⟩]] := by
      unfold addTo
      rw [List.getLast?_eq_some_getLast hne, e1]
      dsimp only
      rw [if_neg]
      rw [e2]
      exact fun hc => h (Or.inr hc)
    rw [hadd]
    have hlen : (ps.dropLast ++ [f :: rest ++ [(⟨era, staked, reward⟩ : Booking)]]).length = ps.length := by
      have := List.length_pos_iff.2 hne
      simp; omega
    have hold : ∀ i, i + 1 < ps.length → (ps.dropLast ++ [f :: rest ++ [(⟨era, staked, reward⟩ : Booking)]])[i]? = ps[i]? := by
      intro i hi
      rw [List.getElem?_append_left (by simp; omega), List.getElem?_dropLast, if_pos (by omega)]
    unfold accumulate
    dsimp only
    refine ⟨?_, ?_, ?_, ?_, b.last, b.order, ?_, b.pubd⟩
    · rw [hlen]; exact b.index
    · intro p hp
      rw [List.getLast?_concat] at hp
      cases hp
      exact ⟨f, _, rfl, e2⟩
    · intro i p hp hpr
      show ∃ g, upd F.growth F.gpIndex _ (i + 1) = some g ∧ _
      have hi : i < ps.length := by
        have := (List.getElem?_eq_some_iff.1 hp).1
        rw [hlen] at this; exact this
      by_cases e : i + 1 = ps.length
      · have hil : i = ps.length - 1 := by omega
        have hlast : ps[i]? = some (f :: rest) := by
          rw [hil, ← List.getLast?_eq_getElem?, List.getLast?_eq_some_getLast hne, e1]
        obtain ⟨g, g1, g2, g3, g4⟩ := b.recs i _ hlast hpr
        have hp' : p = f :: rest ++ [⟨era, staked, reward⟩] := by
          have : i = ps.dropLast.length := by simp; omega
          rw [this, List.getElem?_concat_length] at hp
          exact (Option.some.inj hp).symm
        subst hp'
        refine ⟨_, by rw [b.index, ← e, upd_same], ?_⟩
        rw [g1]
        dsimp only [Option.getD_some]
        refine ⟨?_, ?_, ?_⟩
        · rw [g2]; simp
        · rw [g3]; simp [stakeOf]; omega
        · rw [g4]; simp [amountOf]; omega
      · rw [hold i (by omega)] at hp
        rw [upd_ne _ _ (by rw [b.index]; exact e)]
        exact b.recs i p hp hpr
    · intro x hx
      obtain ⟨k1, k2, p, k3, k4⟩ := b.sent x hx
      refine ⟨k1, by rw [hlen]; exact k2, p, ?_, k4⟩
      rw [hold _ (by omega)]
      exact k3
    · intro q g hq hgq
      have hgq : upd F.growth F.gpIndex _ q = some g := hgq
      by_cases e : q = F.gpIndex
      · rw [e, upd_same] at hgq
        injection hgq with hgq
        subst hgq
        cases hk : F.growth F.gpIndex with
        | none => exact ⟨rfl, rfl⟩
        | some k => exact b.fresh _ k (e ▸ hq) hk
      · rw [upd_ne _ _ e] at hgq; exact b.fresh q g hq hgq

/-! ### Steps -/

theorem HandleSpec.books {e : Nat} (hs : HandleSpec E F F' e) : BooksSame F F' ∧ F'.aside = F.aside ∧ F'.staked = F.staked ∧ F'.led.era = F.led.era ∧ F'.led.total = F.led.total := by
  cases hs with
  | idle h => subst h; exact ⟨.refl _, rfl, rfl, rfl, rfl⟩
  | ended _ _ _ _ h => subst h; exact ⟨⟨rfl, rfl, rfl, rfl, rfl, rfl, rfl⟩, rfl, rfl, rfl, rfl⟩
  | paid _ total _ h =>
    cases h with
    | paid c pts _ _ now =>
      obtain ⟨f, k, p, hq⟩ := payRewards_eq E (e - E.payDelay) c
        (rewardsOf c (perbillMul (ratio pts (F.points (e - E.payDelay))) total) (alGet (F.atStake (e - E.payDelay)) c Snap.zero))
        { F with awarded := upd F.awarded (e - E.payDelay) (alDel (F.awarded (e - E.payDelay)) c),
                 atStake := upd F.atStake (e - E.payDelay) (alDel (F.atStake (e - E.payDelay)) c),
                 served := F.served ++ [(e - E.payDelay, c)] }
      rw [hq] at now
      subst now
      exact ⟨⟨rfl, rfl, rfl, rfl, rfl, rfl, rfl⟩, rfl, rfl, rfl, rfl⟩

theorem SelSpec.books {e : Nat} (hs : SelSpec F F' e) : BooksSame F F' ∧ F'.aside = F.aside ∧ F'.staked = F.staked ∧ F'.led = F.led := by
  cases hs with
  | kept _ h => subst h; exact ⟨⟨rfl, rfl, rfl, rfl, rfl, rfl, rfl⟩, rfl, rfl, rfl⟩
  | chosen _ l h => subst h; exact ⟨⟨rfl, rfl, rfl, rfl, rfl, rfl, rfl⟩, rfl, rfl, rfl⟩

/-- Publishing and accumulating leave the recorded stakes alone. -/
theorem triggerStep_staked (l : List Nat) (F : Full) : (l.foldl (triggerStep pub) F).staked = F.staked := by
  induction l generalizing F with
  | nil => rfl
  | cons p l ih =>
    rw [List.foldl_cons, ih]
    unfold triggerStep
    split
    · rfl
    · split
      · rfl
      · split
        · rfl
        · split <;> rfl

theorem updatePayout_staked (F : Full) (era staked reward points : Nat) (scores : List (Nat × Nat)) :
    (updatePayout E pub F era staked reward points scores).staked = F.staked := by
  unfold updatePayout
  split
  · exact triggerStep_staked _ _
  · rfl

/-- What happens to periods and recorded stakes when an era starts. -/
inductive PrepBooks (E : EPar) (pub : Nat → Option Nat) (F F' : Full) (now : Nat) : Prop where
  | idle (why : now ≤ E.payDelay ∨ F.points (now - E.payDelay) = 0) (h : F' = F)
  | set (late : E.payDelay < now) (pts : F.points (now - E.payDelay) ≠ 0)
      (staked : F'.staked = upd F.staked (now - E.payDelay) 0)
      (aside : F'.aside (now - E.payDelay) = potFunds E F - F.locked)
      (h : E.growthEnabled = true → ∃ F1, BooksSame F F1 ∧ BooksSame (updatePayout E pub F1 (now - E.payDelay) (F.staked (now - E.payDelay))
        (potFunds E F - F.locked) (F.points (now - E.payDelay)) (F.awarded (now - E.payDelay))) F')

theorem preparePayouts_books (E : EPar) (pub : Nat → Option Nat) (F : Full) (now : Nat) :
    PrepBooks E pub F (preparePayouts E pub F now) now := by
  have hs := preparePayouts_ok E pub F now
  cases hs with
  | idle h why => exact .idle why h
  | set late pts frame locked delayed aside =>
    refine .set late pts ?_ (by rw [aside, upd_same]) ?_
    · unfold preparePayouts
      rw [if_neg (by omega), if_neg pts]
      dsimp only
      split
      · rw [updatePayout_staked]
      · rfl
    · intro hg
      unfold preparePayouts
      rw [if_neg (by omega), if_neg pts]
      dsimp only
      rw [if_pos hg]
      refine ⟨{ F with staked := upd F.staked (now - E.payDelay) 0, locked := F.locked + (potFunds E F - F.locked), delayed := upd F.delayed (now - E.payDelay) (some (potFunds E F - F.locked)), aside := upd F.aside (now - E.payDelay) (potFunds E F - F.locked) }, ⟨rfl, rfl, rfl, rfl, rfl, rfl, rfl⟩, .refl _⟩

/-- A block: nothing is set aside and the periods stay, or a reward is set aside and enters the periods. The recorded stakes change
only when an era starts. -/
inductive BlockBooks (E : EPar) (pub : Nat → Option Nat) (F F' : Full) (op : EOp) : Prop where
  | idle (same : BooksSame F F') (none : booked E F op F' = [])
      (stakes : F'.staked = F.staked ∧ F'.led.era = F.led.era ∨ F'.led.era = F.led.era + 1 ∧ F'.staked = upd F.staked F'.led.era F'.led.total)
  | set (K : Full) (reward points : Nat) (scores : List (Nat × Nat)) (before : BooksSame F K) (era : F'.led.era = F.led.era + 1)
      (late : E.payDelay < F'.led.era)
      (one : booked E F op F' = [⟨F.led.era + 1 - E.payDelay, F.staked (F.led.era + 1 - E.payDelay), reward⟩])
      (after : BooksSame (updatePayout E pub K (F.led.era + 1 - E.payDelay) (F.staked (F.led.era + 1 - E.payDelay)) reward points scores) F')
      (stakes : F'.staked = upd (upd F.staked (F.led.era + 1 - E.payDelay) 0) F'.led.era F'.led.total)

theorem block_view {now author pick : Nat} (hg : E.growthEnabled = true) (hc : Core E F) (ho : blockHooks E pub F now author pick = some F') :
    BlockBooks E pub F F' (.block pub now author pick) := by
  cases blockHooks_spec hc ho with
  | same _ _ pay =>
    have hb : BooksSame F F' ∧ F'.led.era = F.led.era ∧ F'.staked = F.staked := by
      by_cases he : E.par.enabled = true
      · rw [if_pos he] at pay
        obtain ⟨k1, -, k3, k2, -⟩ := pay.books
        exact ⟨BooksSame.trans (G := noteAuthor F author) ⟨rfl, rfl, rfl, rfl, rfl, rfl, rfl⟩ k1, k2, k3⟩
      · rw [if_neg he] at pay
        subst pay
        exact ⟨⟨rfl, rfl, rfl, rfl, rfl, rfl, rfl⟩, rfl, rfl⟩
    have : booked E F (.block pub now author pick) F' = [] := by
      unfold booked
      dsimp only
      rw [if_neg (fun h => by have := h.1; omega)]
    exact .idle hb.1 this (Or.inl ⟨hb.2.2, hb.2.1⟩)
  | next why F1 start pay =>
    have hG : ∀ G : Full, G = (if shouldUpdate F now then noteAuthor F author else { noteAuthor F author with force := false }) →
        BooksSame F G ∧ G.led = F.led ∧ G.staked = F.staked ∧ G.points = upd F.points F.led.era (F.points F.led.era + 20) ∧ G.aside = F.aside := by
      intro G hG
      by_cases hw : shouldUpdate F now = true
      · rw [if_pos hw] at hG; subst hG; exact ⟨⟨rfl, rfl, rfl, rfl, rfl, rfl, rfl⟩, rfl, rfl, rfl, rfl⟩
      · rw [if_neg hw] at hG; subst hG; exact ⟨⟨rfl, rfl, rfl, rfl, rfl, rfl, rfl⟩, rfl, rfl, rfl, rfl⟩
    generalize hGe : (if shouldUpdate F now then noteAuthor F author else { noteAuthor F author with force := false }) = G at start
    obtain ⟨g1, g2, g3, g4, g5⟩ := hG G hGe.symm
    obtain ⟨H1, H2, h1, h2, h3⟩ := start.ex
    obtain ⟨s1, s2, s3, s4⟩ := h2.books
    have hF1 : BooksSame H2 F1 ∧ F1.aside = H2.aside ∧ F1.led.era = F.led.era + 1 ∧ F1.staked = upd H2.staked (F.led.era + 1) F1.led.total := by
      subst h3
      exact ⟨⟨rfl, rfl, rfl, rfl, rfl, rfl, rfl⟩, rfl, by show G.led.era + 1 = _; rw [g2], by show upd H2.staked (G.led.era + 1) _ = _; rw [g2]⟩
    obtain ⟨t1, t2, t3, t4⟩ := hF1
    by_cases he : E.par.enabled = true
    · rw [if_pos he] at pay h1
      obtain ⟨p1, p2, p4, p3, p5⟩ := pay.books
      have hera : F'.led.era = F.led.era + 1 := p3.trans t3
      have hsame : BooksSame H1 F' := (s1.trans t1).trans p1
      have hprep := preparePayouts_books E pub G (G.led.era + 1)
      rw [← h1, g2] at hprep
      cases hprep with
      | idle why h =>
        have hb : booked E F (.block pub now author pick) F' = [] := by
          unfold booked
          dsimp only
          rw [if_neg]
          rintro ⟨-, -, k1, k2⟩
          rw [hera] at k1 k2
          rcases why with why | why
          · omega
          · rw [g4] at why
            by_cases e : F.led.era + 1 - E.payDelay = F.led.era
            · rw [e, upd_same] at why; omega
            · rw [upd_ne _ _ e] at why
              rcases k2 with k2 | k2
              · exact k2 why
              · exact e k2
        rw [h] at hsame s3
        refine .idle (g1.trans hsame) hb (Or.inr ⟨hera, ?_⟩)
        rw [p4, t4, s3, g3, hera, p5]
      | set late pts staked aside h =>
        obtain ⟨K, k1, k2⟩ := h hg
        have hb : booked E F (.block pub now author pick) F' =
            [⟨F.led.era + 1 - E.payDelay, F.staked (F.led.era + 1 - E.payDelay), potFunds E G - G.locked⟩] := by
          unfold booked
          dsimp only
          rw [if_pos, hera, p2, t2, s2, aside]
          refine ⟨hera, he, by rw [hera]; exact late, ?_⟩
          rw [hera]
          rw [g4] at pts
          by_cases e : F.led.era + 1 - E.payDelay = F.led.era
          · exact Or.inr e
          · rw [upd_ne _ _ e] at pts; exact Or.inl pts
        rw [g3] at k2
        refine .set K (potFunds E G - G.locked) _ _ (g1.trans k1) hera (by rw [hera]; exact late) hb (k2.trans hsame) ?_
        rw [p4, t4, s3, staked, g3, hera, p5]
    · rw [if_neg he] at pay h1
      have hb : booked E F (.block pub now author pick) F' = [] := by
        unfold booked
        dsimp only
        rw [if_neg]
        exact fun h => he h.2.1
      rw [h1] at s1 s3
      refine .idle ?_ hb (Or.inr ?_)
      · rw [pay]; exact (g1.trans s1).trans t1
      · rw [pay]; exact ⟨t3, by rw [t4, s3, g3, t3]⟩

/-- A block and the periods. -/
theorem block_books {now author pick : Nat} (hg : E.growthEnabled = true) (hc : Core E F)
    (b : Books E.erasPerGrowth ps F) (ho : blockHooks E pub F now author pick = some F') :
    Books E.erasPerGrowth ((booked E F (.block pub now author pick) F').foldl (addTo E.erasPerGrowth) ps) F' := by
  cases block_view hg hc ho with
  | idle same hb => rw [hb]; exact b.same same
  | set K r pts sc before _ _ one after =>
    rw [one]
    exact (updatePayout_books (pub := pub) (b.same before) _ _ r pts sc).same after

/-- Any other step. -/
theorem other_books {op : EOp} (b : Books E.erasPerGrowth ps F) (hop : ∀ pub now a p, op ≠ .block pub now a p) (ho : eCall E F op = some F') :
    Books E.erasPerGrowth ps F' := by
  cases op with
  | block pub now author pick => exact absurd rfl (hop pub now author pick)
  | ledger op =>
    have ho : (if op.allowed E F.led then (call E.par F.led op).map (fun s => { F with led := s }) else none) = some F' := ho
    by_cases ha : op.allowed E F.led = true
    · rw [if_pos ha] at ho
      cases hc : call E.par F.led op with
      | none => rw [hc] at ho; cases ho
      | some s =>
        rw [hc] at ho
        have ho : some { F with led := s } = some F' := ho
        injection ho with ho
        subst ho
        exact b.same ⟨rfl, rfl, rfl, rfl, rfl, rfl, rfl⟩
    · rw [if_neg ha] at ho; cases ho
  | setTotalSelected v =>
    have ho : setTotalSelected E F v = some F' := ho
    unfold setTotalSelected at ho
    by_cases hc : E.minSelected ≤ v ∧ F.totalSelected ≠ v ∧ v ≤ F.length
    · rw [if_pos hc] at ho; injection ho with ho; subst ho; exact b.same ⟨rfl, rfl, rfl, rfl, rfl, rfl, rfl⟩
    · rw [if_neg hc] at ho; cases ho
  | setBlocksPerEra v =>
    have ho : setBlocksPerEra E F v = some F' := ho
    unfold setBlocksPerEra at ho
    by_cases hc : E.minBlocks ≤ v ∧ F.length ≠ v ∧ F.totalSelected ≤ v
    · rw [if_pos hc] at ho; injection ho with ho; subst ho; exact b.same ⟨rfl, rfl, rfl, rfl, rfl, rfl, rfl⟩
    · rw [if_neg hc] at ho; cases ho
  | forceEra =>
    have ho : some { F with force := true } = some F' := ho
    injection ho with ho; subst ho; exact b.same ⟨rfl, rfl, rfl, rfl, rfl, rfl, rfl⟩
  | bridgeResult tx ok =>
    have ho : some (bridgeResult F tx ok) = some F' := ho
    injection ho with ho
    subst ho
    unfold bridgeResult
    cases hp : F.published tx with
    | none => exact b
    | some p =>
      refine ⟨b.index, b.start, ?_, b.sent, b.last, b.order, ?_, b.pubd⟩
      case refine_2 =>
        intro q g hq hgq
        have hgq : upd F.growth p _ q = some g := hgq
        have hpq := b.pubd tx p hp
        have hq : F.lastTriggered < q := hq
        rw [upd_ne _ _ (by omega)] at hgq
        exact b.fresh q g hq hgq
      intro i q hq hpr
      obtain ⟨k, k1, k2⟩ := b.recs i q hq hpr
      show ∃ g, upd F.growth p _ (i + 1) = some g ∧ _
      by_cases e : i + 1 = p
      · subst e
        refine ⟨_, upd_same .., ?_⟩
        rw [k1]
        exact k2
      · exact ⟨k, by rw [upd_ne _ _ e]; exact k1, k2⟩
  | growthLifted amount period =>
    have ho : some (payoutGrowth E F amount period).1 = some F' := ho
    injection ho with ho
    subst ho
    have hg := (payoutGrowth_ok E F amount period).1
    generalize payoutGrowth E F amount period = r at hg ⊢
    obtain ⟨G, c⟩ := r
    dsimp only at hg ⊢
    cases hg with
    | refused _ e => rw [e]; exact b
    | failed _ f e => rw [e]; exact b.same ⟨rfl, rfl, rfl, rfl, rfl, rfl, rfl⟩
    | done was f e =>
      rw [e]
      refine ⟨b.index, b.start, ?_, b.sent, b.last, b.order, ?_, b.pubd⟩
      case refine_2 =>
        intro q g hq hgq
        have hgq : upd F.growth period none q = some g := hgq
        by_cases e : q = period
        · rw [e, upd_same] at hgq; cases hgq
        · rw [upd_ne _ _ e] at hgq; exact b.fresh q g hq hgq
      intro i q hq hpr
      have hpr : upd F.processed period true (i + 1) = false := hpr
      show ∃ g, upd F.growth period none (i + 1) = some g ∧ _
      by_cases e : i + 1 = period
      · rw [e, upd_same] at hpr; cases hpr
      · rw [upd_ne _ _ e] at hpr ⊢
        exact b.recs i q hq hpr

theorem step_books (hg : E.growthEnabled = true) (hc : Core E F) (b : Books E.erasPerGrowth ps F) (op : EOp) :
    Books E.erasPerGrowth ((booked E F op (eStep E F op)).foldl (addTo E.erasPerGrowth) ps) (eStep E F op) := by
  rcases step_cases op with ⟨pub, now, a, p, rfl⟩ | hop
  · unfold eStep
    cases ho : eCall E F (.block pub now a p) with
    | none =>
      have : booked E F (.block pub now a p) F = [] := by
        unfold booked
        dsimp only
        rw [if_neg (fun h => by have := h.1; omega)]
      show Books _ ((booked E F (.block pub now a p) F).foldl _ ps) F
      rw [this]; exact b
    | some F' => exact block_books hg hc b ho
  · have : booked E F op (eStep E F op) = [] := by
      cases op with
      | block pub now a p => exact absurd rfl (hop pub now a p)
      | _ => rfl
    rw [this]
    unfold eStep
    cases ho : eCall E F op with
    | none => exact b
    | some F' => exact other_books b hop ho

theorem genesis_books {F : Full} (h : EStart E F) (hE : E.Sane) : Books E.erasPerGrowth [] F := by
  obtain ⟨d, mt, mc, fr, setup, hm, hn, hg⟩ := h
  have hi := run_inv hE.par.ok hE.par.per.1 (init_inv (delay := d) (mc := mc) (free := fr) hm) setup
  obtain ⟨G, h1, h2⟩ := selectTop_ok (E := E) (F := blank E (run E.par (St.init d mt mc fr) setup)) hi 1 (by intro c hc; cases hc)
  have : genesis E (run E.par (St.init d mt mc fr) setup) = some G := h1
  rw [this] at hg
  injection hg with hg
  subst hg
  refine Books.same (F := blank E _) ⟨rfl, ?_, ?_, ?_, ?_, ?_, ?_, ?_⟩ h2.books.1
  · intro p hp; cases hp
  · intro i p hp; cases hp
  · intro x hx; cases hx
  · intro x hx; cases hx
  · exact List.Pairwise.nil
  · intro p g hp hgp
    have hgp : upd (fun _ => none) 0 (some (⟨1, 0, 0, 0, [], none, none⟩ : GrowthRec)) p = some g := hgp
    have hp : 0 < p := hp
    rw [upd_ne _ _ (by omega)] at hgp
    cases hgp
  · intro tx p hp; cases hp

theorem run_books (hE : E.Sane) (hg : E.growthEnabled = true) (ops : List EOp) (F : Full) (hc : Core E F) (b : Books E.erasPerGrowth ps F) :
    Books E.erasPerGrowth ((bookingsFrom E F ops).foldl (addTo E.erasPerGrowth) ps) (eRun E F ops) := by
  induction ops generalizing F ps with
  | nil => exact b
  | cons op ops ih =>
    unfold bookingsFrom
    rw [List.foldl_append]
    exact ih _ (eStep_core hE.par.ok hE.par.per.1 hE.delay hE.blocks hc op) (step_books hg hc b op)

/-! ### Theorems -/

/-- C82: the stored record of every growth period that was not paid out yet counts its eras and holds the sums of their stakes and
rewards; there are as many periods as the eras with a reward make. -/
theorem C82_stored_growth_is_the_sum (E : EPar) (hE : E.Sane) (hg : E.growthEnabled = true) (F0 : Full) (h0 : EStart E F0) (ops : List EOp) :
    (eRun E F0 ops).gpIndex = (periodsOf E.erasPerGrowth (bookingsFrom E F0 ops)).length ∧
    ∀ i p, (periodsOf E.erasPerGrowth (bookingsFrom E F0 ops))[i]? = some p → (eRun E F0 ops).processed (i + 1) = false →
      ∃ g, (eRun E F0 ops).growth (i + 1) = some g ∧ g.accs = p.length ∧ g.stake = stakeOf p ∧ g.reward = amountOf p := by
  have b := run_books hE hg ops F0 (h0.core hE) (genesis_books h0 hE)
  exact ⟨b.index, b.recs⟩

/-- C82: what is published for a period is the sum of the rewards set aside for its eras and their average stake, and only periods
that are complete are published. -/
theorem C82_published_growth_is_the_sum (E : EPar) (hE : E.Sane) (hg : E.growthEnabled = true) (F0 : Full) (h0 : EStart E F0)
    (ops : List EOp) (x : Sent) (hx : x ∈ (eRun E F0 ops).sent) :
    1 ≤ x.period ∧ x.period < (periodsOf E.erasPerGrowth (bookingsFrom E F0 ops)).length ∧
    ∃ p, (periodsOf E.erasPerGrowth (bookingsFrom E F0 ops))[x.period - 1]? = some p ∧ x.reward = amountOf p ∧
      x.average = stakeOf p / p.length :=
  (run_books hE hg ops F0 (h0.core hE) (genesis_books h0 hE)).sent x hx

/-- C50: periods are published in increasing order. -/
theorem C50_sent_in_order (E : EPar) (hE : E.Sane) (hg : E.growthEnabled = true) (F : Full) (hF : EReach E F) :
    (F.sent.map Sent.period).Pairwise (· < ·) := by
  obtain ⟨F0, ops, h0, rfl⟩ := hF
  exact (run_books hE hg ops F0 (h0.core hE) (genesis_books h0 hE)).order

theorem triggerStep_keeps (F : Full) (q : Nat) (x : Sent) (hx : x ∈ F.sent) : x ∈ (triggerStep pub F q).sent := by
  unfold triggerStep
  split
  · exact hx
  · split
    · exact hx
    · split
      · exact hx
      · split
        · exact hx
        · exact List.mem_append_left _ hx

theorem triggerStep_other (F : Full) {p q : Nat} (h : p ≠ q) : (triggerStep pub F q).growth p = F.growth p ∧
    (triggerStep pub F q).processed = F.processed := by
  unfold triggerStep
  split
  · exact ⟨rfl, rfl⟩
  · split
    · exact ⟨rfl, rfl⟩
    · split
      · exact ⟨upd_ne _ _ h, rfl⟩
      · split
        · exact ⟨rfl, rfl⟩
        · exact ⟨upd_ne _ _ h, rfl⟩

theorem foldTrigger_keeps (l : List Nat) (F : Full) (x : Sent) (hx : x ∈ F.sent) : x ∈ (l.foldl (triggerStep pub) F).sent := by
  induction l generalizing F with
  | nil => exact hx
  | cons q l ih => exact ih _ (triggerStep_keeps F q x hx)

theorem foldTrigger_sends (l : List Nat) (F : Full) (p tx : Nat) (g : GrowthRec) (hp : p ∈ l) (h1 : F.growth p = some g)
    (h2 : F.processed p = false) (h3 : g.txId = none ∧ g.triggered = none) (h4 : g.accs ≠ 0 ∧ g.stake ≠ 0 ∧ g.reward ≠ 0)
    (h5 : pub p = some tx) : ⟨p, g.reward, g.stake / g.accs, tx⟩ ∈ (l.foldl (triggerStep pub) F).sent := by
  induction l generalizing F with
  | nil => cases hp
  | cons q l ih =>
    by_cases e : p = q
    · subst e
      refine foldTrigger_keeps l (triggerStep pub F p) _ ?_
      unfold triggerStep
      rw [h1]
      dsimp only
      rw [if_neg, if_neg, h5]
      · exact List.mem_append_right _ (List.mem_singleton.2 rfl)
      · rintro (k | k | k)
        · exact h4.1 k
        · exact h4.2.1 k
        · exact h4.2.2 k
      · rw [h2, h3.1, h3.2]; simp
    · obtain ⟨k1, k2⟩ := triggerStep_other (pub := pub) F e
      exact ih _ ((List.mem_cons.1 hp).resolve_left e) (k1.trans h1) (by rw [k2]; exact h2)

/-- C50: whenever a new growth period begins, every outstanding earlier one (at most `maxGrowths` of them) that has a reward and a
stake is handed to the bridge, with its own figures; one the bridge accepts is published. -/
theorem C50_outstanding_periods_are_sent (E : EPar) (hE : E.Sane) (hg : E.growthEnabled = true) (F F' : Full) (hF : EReach E F)
    (pub : Nat → Option Nat) (now author pick : Nat) (ho : eCall E F (.block pub now author pick) = some F') (hn : F'.gpIndex ≠ F.gpIndex)
    (p tx : Nat) (g : GrowthRec) (h1 : F.lastTriggered < p) (h2 : p ≤ F.gpIndex) (h3 : p ≤ F.lastTriggered + E.maxGrowths)
    (h4 : F.processed p = false) (h5 : F.growth p = some g) (h6 : g.accs ≠ 0 ∧ g.stake ≠ 0 ∧ g.reward ≠ 0) (h7 : pub p = some tx) :
    ⟨p, g.reward, g.stake / g.accs, tx⟩ ∈ F'.sent := by
  have hc := hF.core hE
  obtain ⟨F0, ops, h0, rfl⟩ := hF
  have b := run_books hE hg ops F0 (h0.core hE) (genesis_books h0 hE)
  generalize eRun E F0 ops = F at *
  cases block_view hg hc ho with
  | idle same => exact absurd same.gpIndex hn
  | set K r pts sc before _ _ _ after =>
    rw [after.sent]
    rw [after.gpIndex, ← before.gpIndex] at hn
    unfold updatePayout at hn ⊢
    by_cases hw : newPeriod E K (F.led.era + 1 - E.payDelay) = true
    · rw [if_pos hw]
      unfold triggerGrowths
      refine foldTrigger_sends _ _ p tx g ?_ ?_ ?_ (b.fresh p g h1 h5) h6 h7
      · rw [untriggered_mem]
        show K.lastTriggered < p ∧ p ≤ K.gpIndex + 1 - 1 ∧ p ≤ K.lastTriggered + _
        rw [before.last, before.gpIndex]
        omega
      · show upd K.growth (K.gpIndex + 1) _ p = _
        rw [upd_ne _ _ (by rw [before.gpIndex]; omega), before.growth]
        exact h5
      · show K.processed p = false
        rw [before.processed]; exact h4
    · rw [if_neg hw] at hn
      exact absurd rfl hn

/-- `e` began, with `t` staked in total, at some point of the history. -/
def Began (E : EPar) (F0 : Full) (ops : List EOp) (e t : Nat) : Prop :=
  ∃ pre post, ops = pre ++ post ∧ (eRun E F0 pre).led.era = e ∧ (eRun E F0 pre).led.total = t ∧
    (pre = [] ∨ ∃ pre' op, pre = pre' ++ [op] ∧ (eRun E F0 pre').led.era + 1 = e)

theorem Began.more {F0 : Full} {ops : List EOp} {e t : Nat} (h : Began E F0 ops e t) (op : EOp) : Began E F0 (ops ++ [op]) e t := by
  obtain ⟨pre, post, h1, h2⟩ := h
  exact ⟨pre, post ++ [op], by rw [h1]; simp, h2⟩

theorem other_staked {op : EOp} (hop : ∀ pub now a p, op ≠ .block pub now a p) (ho : eCall E F op = some F') : F'.staked = F.staked := by
  cases op with
  | block pub now author pick => exact absurd rfl (hop pub now author pick)
  | ledger op =>
    have ho : (if op.allowed E F.led then (call E.par F.led op).map (fun s => { F with led := s }) else none) = some F' := ho
    by_cases ha : op.allowed E F.led = true
    · rw [if_pos ha] at ho
      cases hc : call E.par F.led op with
      | none => rw [hc] at ho; cases ho
      | some s =>
        rw [hc] at ho
        have ho : some { F with led := s } = some F' := ho
        injection ho with ho
        subst ho
        rfl
    · rw [if_neg ha] at ho; cases ho
  | setTotalSelected v =>
    have ho : setTotalSelected E F v = some F' := ho
    unfold setTotalSelected at ho
    by_cases hc : E.minSelected ≤ v ∧ F.totalSelected ≠ v ∧ v ≤ F.length
    · rw [if_pos hc] at ho; injection ho with ho; subst ho; rfl
    · rw [if_neg hc] at ho; cases ho
  | setBlocksPerEra v =>
    have ho : setBlocksPerEra E F v = some F' := ho
    unfold setBlocksPerEra at ho
    by_cases hc : E.minBlocks ≤ v ∧ F.length ≠ v ∧ F.totalSelected ≤ v
    · rw [if_pos hc] at ho; injection ho with ho; subst ho; rfl
    · rw [if_neg hc] at ho; cases ho
  | forceEra =>
    have ho : some { F with force := true } = some F' := ho
    injection ho with ho; subst ho; rfl
  | bridgeResult tx ok =>
    have ho : some (bridgeResult F tx ok) = some F' := ho
    injection ho with ho
    subst ho
    unfold bridgeResult
    cases F.published tx <;> rfl
  | growthLifted amount period =>
    have ho : some (payoutGrowth E F amount period).1 = some F' := ho
    injection ho with ho
    subst ho
    have hg := (payoutGrowth_ok E F amount period).1
    generalize payoutGrowth E F amount period = r at hg ⊢
    obtain ⟨G, c⟩ := r
    dsimp only at hg ⊢
    cases hg with
    | refused _ e => rw [e]
    | failed _ f e => rw [e]; rfl
    | done _ f e => rw [e]; rfl

theorem began_run (hE : E.Sane) (hg : E.growthEnabled = true) {F0 : Full} (h0 : EStart E F0) (ops : List EOp) (e : Nat) (h1 : 1 ≤ e)
    (h2 : e ≤ (eRun E F0 ops).led.era) (h3 : (eRun E F0 ops).led.era < e + E.payDelay) :
    Began E F0 ops e ((eRun E F0 ops).staked e) := by
  induction ops using List.reverseRecOn with
  | nil =>
    obtain ⟨d, mt, mc, fr, setup, hm, hn, hge⟩ := h0
    have hi := run_inv hE.par.ok hE.par.per.1 (init_inv (delay := d) (mc := mc) (free := fr) hm) setup
    obtain ⟨G, k1, k2⟩ := selectTop_ok (E := E) (F := blank E (run E.par (St.init d mt mc fr) setup)) hi 1 (by intro c hc; cases hc)
    have : genesis E (run E.par (St.init d mt mc fr) setup) = some G := k1
    rw [this] at hge
    injection hge with hge
    subst hge
    obtain ⟨-, -, s3, s4⟩ := k2.books
    have hera : G.led.era = 1 := by rw [s4]; exact run_era E.par hE.par.ok hE.par.per.1 (init_inv hm) setup hn
    have h2 : e ≤ G.led.era := h2
    have he : e = 1 := by omega
    refine ⟨[], [], rfl, ?_, ?_, Or.inl rfl⟩
    · show G.led.era = e
      omega
    · show G.led.total = G.staked e
      rw [s3, s4, he]
      show _ = upd (fun _ => 0) 1 _ 1
      rw [upd_same]; rfl
  | append_singleton l x ih =>
    have hc := (EReach.core hE ⟨F0, l, h0, rfl⟩ : Core E (eRun E F0 l))
    rw [eRun_snoc] at h2 h3 ⊢
    have hself : eRun E F0 (l ++ [x]) = eStep E (eRun E F0 l) x := eRun_snoc ..
    have hkeep : (eStep E (eRun E F0 l) x).led.era = (eRun E F0 l).led.era → (eStep E (eRun E F0 l) x).staked = (eRun E F0 l).staked →
        Began E F0 (l ++ [x]) e ((eStep E (eRun E F0 l) x).staked e) := by
      intro a1 a2
      rw [a1] at h2 h3
      rw [a2]
      exact (ih h2 h3).more x
    cases ho : eCall E (eRun E F0 l) x with
    | none =>
      have : eStep E (eRun E F0 l) x = eRun E F0 l := by unfold eStep; rw [ho]; rfl
      exact hkeep (by rw [this]) (by rw [this])
    | some F' =>
      have hst : eStep E (eRun E F0 l) x = F' := by unfold eStep; rw [ho]; rfl
      rcases step_cases x with ⟨pub, now, a, p, rfl⟩ | hop
      · have hv := block_view hg hc ho
        have hnew : F'.led.era = (eRun E F0 l).led.era + 1 → e = F'.led.era → F'.staked e = F'.led.total →
            Began E F0 (l ++ [.block pub now a p]) e (F'.staked e) := by
          intro a1 a2 a3
          refine ⟨l ++ [.block pub now a p], [], by simp, ?_, ?_, Or.inr ⟨l, _, rfl, by omega⟩⟩
          · rw [hself, hst]; exact a2.symm
          · rw [hself, hst]; exact a3.symm
        rw [hst] at h2 h3 hkeep ⊢
        cases hv with
        | idle _ _ stakes =>
          rcases stakes with ⟨s1, s2⟩ | ⟨s1, s2⟩
          · exact hkeep s2 s1
          · by_cases ee : e = F'.led.era
            · exact hnew s1 ee (by rw [s2, ee, upd_same])
            · rw [s2, upd_ne _ _ ee]
              exact (ih (by omega) (by omega)).more _
        | set _ _ _ _ _ era late _ _ stakes =>
          by_cases ee : e = F'.led.era
          · exact hnew era ee (by rw [stakes, ee, upd_same])
          · rw [stakes, upd_ne _ _ ee, upd_ne _ _ (by omega)]
            exact (ih (by omega) (by omega)).more _
      · refine hkeep ?_ ?_
        · rw [hst]; exact (eCall_other hE hc ho hop).1
        · rw [hst]; exact other_staked hop ho

theorem booked_era {op : EOp} {b : Booking} (hb : b ∈ booked E F op F') : b.stake = F.staked b.era ∧ b.era + E.payDelay = F.led.era + 1 ∧
    1 ≤ b.era ∧ b.amount = F'.aside b.era := by
  cases op with
  | block pub now a p =>
    unfold booked at hb
    dsimp only at hb
    split at hb
    · rename_i h
      rw [List.mem_singleton.1 hb]
      obtain ⟨k1, -, k2, -⟩ := h
      refine ⟨rfl, ?_, ?_, rfl⟩
      · show F'.led.era - E.payDelay + E.payDelay = _; omega
      · show 1 ≤ F'.led.era - E.payDelay; omega
    · cases hb
  | _ => cases hb

theorem mem_bookings {F : Full} {ops : List EOp} {b : Booking} (h : b ∈ bookingsFrom E F ops) :
    ∃ pre op post, ops = pre ++ op :: post ∧ b ∈ booked E (eRun E F pre) op (eStep E (eRun E F pre) op) := by
  induction ops generalizing F with
  | nil => cases h
  | cons op ops ih =>
    rcases List.mem_append.1 h with h | h
    · exact ⟨[], op, ops, rfl, h⟩
    · obtain ⟨pre, o, post, e, hb⟩ := ih h
      exact ⟨op :: pre, o, post, by rw [e]; rfl, hb⟩

/-- C82: the stake counted for an era is what was staked in total when the era began, and the amount is what was set aside. -/
theorem C82_booked_stake_is_the_stake_at_the_start (E : EPar) (hE : E.Sane) (hg : E.growthEnabled = true) (F0 : Full) (h0 : EStart E F0)
    (ops : List EOp) (b : Booking) (hb : b ∈ bookingsFrom E F0 ops) : Began E F0 ops b.era b.stake := by
  obtain ⟨pre, op, post, e, hb⟩ := mem_bookings hb
  obtain ⟨k1, k2, k3, -⟩ := booked_era hb
  have hd := hE.delay
  obtain ⟨p1, p2, e1, e2⟩ := began_run hE hg h0 pre b.era k3 (by omega) (by omega)
  rw [← k1] at e2
  exact ⟨p1, p2 ++ op :: post, by rw [e, e1]; simp, e2⟩

/-- C82: an era is counted at most once, in order. -/
theorem C82_eras_are_counted_once (E : EPar) (hE : E.Sane) (F0 : Full) (h0 : EStart E F0) (ops : List EOp) :
    ((bookingsFrom E F0 ops).map Booking.era).Pairwise (· < ·) := by
  have key : ∀ (ops : List EOp) (F : Full), EReach E F → ((bookingsFrom E F ops).map Booking.era).Pairwise (· < ·) ∧
      ∀ b ∈ bookingsFrom E F ops, F.led.era < b.era + E.payDelay := by
    intro ops
    induction ops with
    | nil => intro F _; exact ⟨List.Pairwise.nil, fun b hb => by cases hb⟩
    | cons op ops ih =>
      intro F hF
      obtain ⟨i1, i2⟩ := ih _ (hF.step op)
      have hle := step_era hE hF op
      have hstep : ∀ b ∈ booked E F op (eStep E F op), b.era + E.payDelay = (eStep E F op).led.era ∧ F.led.era < b.era + E.payDelay := by
        intro b hb
        obtain ⟨-, k, -⟩ := booked_era hb
        have : (eStep E F op).led.era = F.led.era + 1 := by
          cases op with
          | block pub now a p =>
            unfold booked at hb
            dsimp only at hb
            split at hb
            · rename_i h; exact h.1
            · cases hb
          | _ => cases hb
        omega
      unfold bookingsFrom
      constructor
      · rw [List.map_append, List.pairwise_append]
        refine ⟨?_, i1, ?_⟩
        · have : (booked E F op (eStep E F op)).length ≤ 1 := by
            cases op with
            | block pub now a p =>
              unfold booked
              dsimp only
              split <;> simp
            | _ => exact Nat.zero_le _
          generalize booked E F op (eStep E F op) = l at this
          match l, this with
          | [], _ => exact List.Pairwise.nil
          | [x], _ => simp
        · intro a ha c hc
          obtain ⟨x, hx, rfl⟩ := List.mem_map.1 ha
          obtain ⟨y, hy, rfl⟩ := List.mem_map.1 hc
          have := (hstep x hx).1
          have := i2 y hy
          omega
      · intro b hb
        rcases List.mem_append.1 hb with hb | hb
        · exact (hstep b hb).2
        · have := i2 b hb
          omega
  exact (key ops F0 ⟨F0, [], h0, rfl⟩).1

/-- The first two eras form a period, the third starts the next one, and then the first is published: 100 in total, 110 staked on
average. -/
example : periodsOf smallE.erasPerGrowth (bookingsFrom smallE small0 failHistory) = [[⟨1, 110, 0⟩, ⟨2, 110, 100⟩], [⟨3, 110, 0⟩]] ∧
    (eRun smallE small0 failHistory).sent = [⟨1, 100, 110, 101⟩] ∧ smallE.growthEnabled = true ∧ EStart smallE small0 :=
  ⟨by decide +kernel, by decide +kernel, rfl, small0_start⟩

/-- The hypotheses of `C50_outstanding_periods_are_sent` are met by the block that starts the second period. -/
example : let F := eRun smallE small0 (failHistory.take 7)
    failHistory[7]? = some (plain 20 1) ∧ (eCall smallE F (plain 20 1)).isSome = true ∧ (eStep smallE F (plain 20 1)).gpIndex ≠ F.gpIndex ∧
    F.lastTriggered < 1 ∧ 1 ≤ F.gpIndex ∧ 1 ≤ F.lastTriggered + smallE.maxGrowths ∧ F.processed 1 = false ∧
    (F.growth 1).map (fun g => (g.accs, g.stake, g.reward)) = some (2, 220, 100) := by
  refine ⟨rfl, ?_, ?_, ?_, ?_, ?_, ?_, ?_⟩ <;> decide +kernel

end Verif.Staking
