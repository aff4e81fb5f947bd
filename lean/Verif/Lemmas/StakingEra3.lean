import Verif.Lemmas.StakingEra2

/-! # Growth periods: at most once published, at most once paid out, scores add up -/

namespace Verif.Staking

variable {E : EPar} {F F' : Full} {pub : Nat → Option Nat}

/-- What is stored of a period that was sent to Ethereum. -/
def SentOk (F : Full) (x : Sent) : Prop :=
  F.processed x.period = true ∨
    ∃ g, F.growth x.period = some g ∧ g.txId.isSome = true ∧ g.reward = x.reward ∧ g.stake / g.accs = x.average

/-- The invariant of growth periods. -/
structure Grow (F : Full) : Prop where
  sum : ∀ p g, F.growth p = some g → valSum g.scores = g.points ∧ (g.scores.map Prod.fst).Nodup ∧ (g.points = 0 → g.scores = [])
  index : ∀ x ∈ F.sent, x.period < F.gpIndex
  sent : ∀ x ∈ F.sent, SentOk F x
  once : (F.sent.map Sent.period).Nodup
  paid : ∀ x ∈ F.payouts, F.processed x.1 = true
  paidOnce : (F.payouts.map Prod.fst).Nodup

/-- The fields the invariant is about. -/
structure GrowSame (F F' : Full) : Prop where
  growth : F'.growth = F.growth
  gpIndex : F'.gpIndex = F.gpIndex
  processed : F'.processed = F.processed
  sent : F'.sent = F.sent
  payouts : F'.payouts = F.payouts

theorem SentOk.same {x : Sent} (h : GrowSame F F') (hs : SentOk F x) : SentOk F' x := by
  unfold SentOk at *
  rw [h.growth, h.processed]
  exact hs

theorem Grow.same (h : GrowSame F F') (g : Grow F) : Grow F' := by
  refine ⟨?_, ?_, ?_, ?_, ?_, ?_⟩
  · rw [h.growth]; exact g.sum
  · rw [h.sent, h.gpIndex]; exact g.index
  · rw [h.sent]; exact fun x hx => (g.sent x hx).same h
  · rw [h.sent]; exact g.once
  · rw [h.payouts, h.processed]; exact g.paid
  · rw [h.payouts]; exact g.paidOnce

/-- Only periods below the current index are published. -/
theorem triggerStep_grow (g : Grow F) {p : Nat} (hp : p < F.gpIndex) :
    Grow (triggerStep pub F p) ∧ (triggerStep pub F p).gpIndex = F.gpIndex := by
  unfold triggerStep
  cases hg : F.growth p with
  | none => exact ⟨g, rfl⟩
  | some r =>
    dsimp only
    by_cases h1 : F.processed p = true ∨ r.txId.isSome = true ∨ r.triggered.isSome = true
    · rw [if_pos h1]; exact ⟨g, rfl⟩
    rw [if_neg h1]
    by_cases h2 : r.accs = 0 ∨ r.stake = 0 ∨ r.reward = 0
    · rw [if_pos h2]
      refine ⟨⟨?_, g.index, ?_, g.once, g.paid, g.paidOnce⟩, rfl⟩
      · intro q k hk
        have hk : upd F.growth p (some { r with txId := some 0 }) q = some k := hk
        by_cases e : q = p
        · subst e
          rw [upd_same] at hk
          injection hk with hk
          subst hk
          exact g.sum q r hg
        · rw [upd_ne _ _ e] at hk; exact g.sum q k hk
      · intro x hx
        rcases g.sent x hx with h | ⟨k, k1, k2⟩
        · exact Or.inl h
        · refine Or.inr ?_
          by_cases e : x.period = p
          · rw [e, hg] at k1
            injection k1 with k1
            subst k1
            exact absurd (Or.inr (Or.inl k2.1)) h1
          · exact ⟨k, by show upd F.growth p _ _ = _; rw [upd_ne _ _ e]; exact k1, k2⟩
    rw [if_neg h2]
    cases hpub : pub p with
    | none => exact ⟨g, rfl⟩
    | some tx =>
      dsimp only
      refine ⟨⟨?_, ?_, ?_, ?_, g.paid, g.paidOnce⟩, rfl⟩
      · intro q k hk
        have hk : upd F.growth p (some { r with txId := some tx }) q = some k := hk
        by_cases e : q = p
        · subst e
          rw [upd_same] at hk
          injection hk with hk
          subst hk
          exact g.sum q r hg
        · rw [upd_ne _ _ e] at hk; exact g.sum q k hk
      · intro x hx
        rcases List.mem_append.1 hx with hx | hx
        · exact g.index x hx
        · rw [List.mem_singleton.1 hx]; exact hp
      · intro x hx
        rcases List.mem_append.1 hx with hx | hx
        · rcases g.sent x hx with h | ⟨k, k1, k2⟩
          · exact Or.inl h
          · refine Or.inr ?_
            by_cases e : x.period = p
            · rw [e, hg] at k1
              injection k1 with k1
              subst k1
              exact absurd (Or.inr (Or.inl k2.1)) h1
            · exact ⟨k, by show upd F.growth p _ _ = _; rw [upd_ne _ _ e]; exact k1, k2⟩
        · rw [List.mem_singleton.1 hx]
          refine Or.inr ⟨{ r with txId := some tx }, ?_, rfl, rfl, rfl⟩
          show upd F.growth p _ p = _
          rw [upd_same]
      · show ((F.sent ++ [_]).map Sent.period).Nodup
        rw [List.map_append]
        refine List.nodup_append.2 ⟨g.once, by simp, ?_⟩
        intro a ha b hb
        obtain ⟨x, hx, rfl⟩ := List.mem_map.1 ha
        have hb : b = p := by simpa using hb
        subst hb
        intro e
        rcases g.sent x hx with h | ⟨k, k1, k2⟩
        · rw [e] at h; exact h1 (Or.inl h)
        · rw [e, hg] at k1
          injection k1 with k1
          subst k1
          exact h1 (Or.inr (Or.inl k2.1))

theorem foldTrigger_grow (l : List Nat) (g : Grow F) (hl : ∀ p ∈ l, p < F.gpIndex) :
    Grow (l.foldl (triggerStep pub) F) ∧ (l.foldl (triggerStep pub) F).gpIndex = F.gpIndex := by
  induction l generalizing F with
  | nil => exact ⟨g, rfl⟩
  | cons p l ih =>
    obtain ⟨h1, h2⟩ := triggerStep_grow (pub := pub) g (hl p (List.mem_cons_self ..))
    obtain ⟨h3, h4⟩ := ih h1 (fun q hq => by rw [h2]; exact hl q (List.mem_cons_of_mem _ hq))
    exact ⟨h3, h4.trans h2⟩

theorem updatePayout_grow (g : Grow F) {era staked reward points : Nat} {scores : List (Nat × Nat)} (hs : valSum scores = points)
    (hn : (scores.map Prod.fst).Nodup) (h0 : points ≠ 0) : Grow (updatePayout E pub F era staked reward points scores) := by
  unfold updatePayout
  by_cases h : newPeriod E F era = true
  · rw [if_pos h]
    unfold triggerGrowths
    refine (foldTrigger_grow _ ?_ ?_).1
    · refine ⟨?_, ?_, ?_, g.once, g.paid, g.paidOnce⟩
      · intro q k hk
        have hk : upd F.growth (F.gpIndex + 1) (some ⟨1, staked, reward, points, scores, none, none⟩) q = some k := hk
        by_cases e : q = F.gpIndex + 1
        · subst e
          rw [upd_same] at hk
          injection hk with hk
          subst hk
          exact ⟨hs, hn, fun e => absurd e h0⟩
        · rw [upd_ne _ _ e] at hk; exact g.sum q k hk
      · intro x hx
        have := g.index x hx
        show x.period < F.gpIndex + 1
        omega
      · intro x hx
        have := g.index x hx
        rcases g.sent x hx with h | ⟨k, k1, k2⟩
        · exact Or.inl h
        · refine Or.inr ⟨k, ?_, k2⟩
          show upd F.growth (F.gpIndex + 1) _ x.period = _
          rw [upd_ne _ _ (by omega)]
          exact k1
    · intro p hp
      have hp := List.mem_of_mem_take hp
      rw [List.mem_range'_1] at hp
      show p < F.gpIndex + 1
      omega
  · rw [if_neg h]
    unfold accumulate
    dsimp only
    refine ⟨?_, g.index, ?_, g.once, g.paid, g.paidOnce⟩
    · intro q k hk
      have hk : upd F.growth F.gpIndex (some _) q = some k := hk
      by_cases e : q = F.gpIndex
      · subst e
        rw [upd_same] at hk
        injection hk with hk
        subst hk
        have hg : valSum ((F.growth F.gpIndex).getD GrowthRec.zero).scores = ((F.growth F.gpIndex).getD GrowthRec.zero).points ∧
            (((F.growth F.gpIndex).getD GrowthRec.zero).scores.map Prod.fst).Nodup := by
          cases hx : F.growth F.gpIndex with
          | none => exact ⟨rfl, List.nodup_nil⟩
          | some r => exact ⟨(g.sum _ r hx).1, (g.sum _ r hx).2.1⟩
        obtain ⟨m1, m2⟩ := mergeScores_ok ((F.growth F.gpIndex).getD GrowthRec.zero).scores scores hg.2
        refine ⟨by rw [m2, hg.1, hs], m1, fun e => ?_⟩
        have e : _ + points = 0 := e
        omega
      · rw [upd_ne _ _ e] at hk; exact g.sum q k hk
    · intro x hx
      have := g.index x hx
      rcases g.sent x hx with h | ⟨k, k1, k2⟩
      · exact Or.inl h
      · refine Or.inr ⟨k, ?_, k2⟩
        show upd F.growth F.gpIndex _ x.period = _
        rw [upd_ne _ _ (by omega)]
        exact k1

theorem preparePayouts_grow (g : Grow F) {now : Nat}
    (hs : E.payDelay < now → valSum (F.awarded (now - E.payDelay)) = F.points (now - E.payDelay))
    (hn : ((F.awarded (now - E.payDelay)).map Prod.fst).Nodup) : Grow (preparePayouts E pub F now) := by
  unfold preparePayouts
  by_cases h1 : now ≤ E.payDelay
  · rw [if_pos h1]; exact g
  rw [if_neg h1]
  by_cases h2 : F.points (now - E.payDelay) = 0
  · rw [if_pos h2]; exact g
  rw [if_neg h2]
  dsimp only
  by_cases h3 : E.growthEnabled = true
  · rw [if_pos h3]
    apply updatePayout_grow _ (hs (by omega)) hn h2
    exact Grow.same (F := F) ⟨rfl, rfl, rfl, rfl, rfl⟩ g
  · rw [if_neg h3]
    exact Grow.same (F := F) ⟨rfl, rfl, rfl, rfl, rfl⟩ g

theorem bridgeResult_grow (g : Grow F) (tx : Nat) (ok : Bool) : Grow (bridgeResult F tx ok) := by
  unfold bridgeResult
  cases hp : F.published tx with
  | none => exact g
  | some p =>
    dsimp only
    refine ⟨?_, g.index, ?_, g.once, g.paid, g.paidOnce⟩
    · intro q k hk
      have hk : upd F.growth p (some { ((F.growth p).getD GrowthRec.zero) with triggered := some ok }) q = some k := hk
      by_cases e : q = p
      · subst e
        rw [upd_same] at hk
        injection hk with hk
        subst hk
        cases hx : F.growth q with
        | none => exact ⟨rfl, List.nodup_nil, fun _ => rfl⟩
        | some r => exact g.sum _ r hx
      · rw [upd_ne _ _ e] at hk; exact g.sum q k hk
    · intro x hx
      rcases g.sent x hx with h | ⟨k, k1, k2⟩
      · exact Or.inl h
      · refine Or.inr ?_
        by_cases e : x.period = p
        · refine ⟨{ k with triggered := some ok }, ?_, k2⟩
          show upd F.growth p _ _ = _
          rw [e, upd_same, ← e, k1]
          rfl
        · refine ⟨k, ?_, k2⟩
          show upd F.growth p _ _ = _
          rw [upd_ne _ _ e]
          exact k1

theorem GrowthSpec.grow {amount period : Nat} {b : Bool} (g : Grow F) (hs : GrowthSpec E F F' amount period b) : Grow F' := by
  cases hs with
  | refused _ e => subst e; exact g
  | failed _ f e => subst e; exact Grow.same (F := F) ⟨rfl, rfl, rfl, rfl, rfl⟩ g
  | done was f e m =>
    subst e
    refine ⟨?_, g.index, ?_, g.once, ?_, ?_⟩
    · intro q k hk
      have hk : upd F.growth period none q = some k := hk
      by_cases e : q = period
      · subst e; rw [upd_same] at hk; cases hk
      · rw [upd_ne _ _ e] at hk; exact g.sum q k hk
    · intro x hx
      by_cases e : x.period = period
      · refine Or.inl ?_
        show upd F.processed period true x.period = true
        rw [e, upd_same]
      · rcases g.sent x hx with h | ⟨k, k1, k2⟩
        · refine Or.inl ?_
          show upd F.processed period true x.period = true
          rw [upd_ne _ _ e]; exact h
        · refine Or.inr ⟨k, ?_, k2⟩
          show upd F.growth period none x.period = _
          rw [upd_ne _ _ e]; exact k1
    · intro x hx
      have hx : x ∈ F.payouts ++ [(period, amount)] := hx
      show upd F.processed period true x.1 = true
      by_cases e : x.1 = period
      · rw [e, upd_same]
      · rw [upd_ne _ _ e]
        rcases List.mem_append.1 hx with hx | hx
        · exact g.paid x hx
        · rw [List.mem_singleton.1 hx] at e; exact absurd rfl e
    · show ((F.payouts ++ [(period, amount)]).map Prod.fst).Nodup
      rw [List.map_append]
      refine List.nodup_append.2 ⟨g.paidOnce, by simp, ?_⟩
      intro a ha c hc
      obtain ⟨x, hx, rfl⟩ := List.mem_map.1 ha
      have hc : c = period := by simpa using hc
      subst hc
      intro e
      have := g.paid x hx
      rw [e, was] at this
      cases this

end Verif.Staking
