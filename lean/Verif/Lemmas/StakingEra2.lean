import Verif.Lemmas.StakingEra

/-! # Eras: what each part of the block hooks leaves alone, the choice of collators, and the invariants of the ledger and the pot -/

namespace Verif.Staking

/-! ### The ledger inside -/

/-- Some calls lead from one ledger to another. -/
def LedRun (P : Par) (s s' : St) : Prop := ∃ ops, s' = run P s ops

theorem LedRun.refl (P : Par) (s : St) : LedRun P s s := ⟨[], rfl⟩

theorem LedRun.trans {P : Par} {s t u : St} (h : LedRun P s t) (g : LedRun P t u) : LedRun P s u := by
  obtain ⟨a, rfl⟩ := h
  obtain ⟨b, rfl⟩ := g
  exact ⟨a ++ b, (run_append ..).symm⟩

theorem LedRun.free (P : Par) (s : St) (a v : Nat) : LedRun P s { s with free := upd s.free a v } := ⟨[.setFree a v], rfl⟩

theorem LedRun.era (P : Par) (s : St) : LedRun P s { s with era := s.era + 1 } := ⟨[.newEra], rfl⟩

theorem LedRun.ofCall {P : Par} {s s' : St} {op : Op} (h : call P s op = some s') : LedRun P s s' :=
  ⟨[op], by show s' = (call P s op).getD s; rw [h]; rfl⟩

/-- The invariant of the ledger does not depend on balances and the era. -/
theorem Inv.other {P : Par} {s : St} (h : Inv P s) (f : Nat → Nat) (e : Nat) : Inv P { s with free := f, era := e } :=
  ⟨⟨h.g.n, h.g.c, h.g.link, h.g.excl, h.g.min⟩, h.q⟩

/-! ### Growth and the preparation of payouts -/

/-- What the preparation of payouts never touches. -/
structure PrepFrame (F F' : Full) : Prop where
  led : F'.led = F.led
  first : F'.first = F.first
  length : F'.length = F.length
  force : F'.force = F.force
  totalSelected : F'.totalSelected = F.totalSelected
  selected : F'.selected = F.selected
  atStake : F'.atStake = F.atStake
  points : F'.points = F.points
  awarded : F'.awarded = F.awarded
  processed : F'.processed = F.processed
  paid : F'.paid = F.paid
  served : F'.served = F.served
  payouts : F'.payouts = F.payouts

theorem PrepFrame.refl (F : Full) : PrepFrame F F := ⟨rfl, rfl, rfl, rfl, rfl, rfl, rfl, rfl, rfl, rfl, rfl, rfl, rfl⟩

theorem PrepFrame.trans {F G H : Full} (h : PrepFrame F G) (g : PrepFrame G H) : PrepFrame F H :=
  ⟨g.led.trans h.led, g.first.trans h.first, g.length.trans h.length, g.force.trans h.force, g.totalSelected.trans h.totalSelected,
   g.selected.trans h.selected, g.atStake.trans h.atStake, g.points.trans h.points, g.awarded.trans h.awarded,
   g.processed.trans h.processed, g.paid.trans h.paid, g.served.trans h.served, g.payouts.trans h.payouts⟩

/-- What growth periods never touch. -/
structure GrowFrame (F F' : Full) : Prop where
  prep : PrepFrame F F'
  locked : F'.locked = F.locked
  delayed : F'.delayed = F.delayed
  aside : F'.aside = F.aside
  staked : F'.staked = F.staked

theorem GrowFrame.refl (F : Full) : GrowFrame F F := ⟨PrepFrame.refl F, rfl, rfl, rfl, rfl⟩

theorem GrowFrame.trans {F G H : Full} (h : GrowFrame F G) (g : GrowFrame G H) : GrowFrame F H :=
  ⟨h.prep.trans g.prep, g.locked.trans h.locked, g.delayed.trans h.delayed, g.aside.trans h.aside, g.staked.trans h.staked⟩

variable {E : EPar} {F F' : Full} {pub : Nat → Option Nat}

theorem triggerStep_frame (pub : Nat → Option Nat) (F : Full) (p : Nat) : GrowFrame F (triggerStep pub F p) := by
  unfold triggerStep
  cases hg : F.growth p with
  | none => exact GrowFrame.refl F
  | some g =>
    dsimp only
    by_cases h1 : F.processed p = true ∨ g.txId.isSome = true ∨ g.triggered.isSome = true
    · rw [if_pos h1]; exact GrowFrame.refl F
    rw [if_neg h1]
    by_cases h2 : g.accs = 0 ∨ g.stake = 0 ∨ g.reward = 0
    · rw [if_pos h2]; exact ⟨⟨rfl, rfl, rfl, rfl, rfl, rfl, rfl, rfl, rfl, rfl, rfl, rfl, rfl⟩, rfl, rfl, rfl, rfl⟩
    rw [if_neg h2]
    cases hp : pub p with
    | none => exact GrowFrame.refl F
    | some tx => exact ⟨⟨rfl, rfl, rfl, rfl, rfl, rfl, rfl, rfl, rfl, rfl, rfl, rfl, rfl⟩, rfl, rfl, rfl, rfl⟩

theorem foldTrigger_frame (pub : Nat → Option Nat) (l : List Nat) (F : Full) : GrowFrame F (l.foldl (triggerStep pub) F) := by
  induction l generalizing F with
  | nil => exact GrowFrame.refl F
  | cons p l ih => exact (triggerStep_frame pub F p).trans (ih _)

theorem updatePayout_frame (E : EPar) (pub : Nat → Option Nat) (F : Full) (era staked reward points : Nat) (scores : List (Nat × Nat)) :
    GrowFrame F (updatePayout E pub F era staked reward points scores) := by
  unfold updatePayout
  by_cases h : newPeriod E F era = true
  · rw [if_pos h]
    refine GrowFrame.trans ?_ (foldTrigger_frame pub _ _)
    exact ⟨⟨rfl, rfl, rfl, rfl, rfl, rfl, rfl, rfl, rfl, rfl, rfl, rfl, rfl⟩, rfl, rfl, rfl, rfl⟩
  · rw [if_neg h]
    exact ⟨⟨rfl, rfl, rfl, rfl, rfl, rfl, rfl, rfl, rfl, rfl, rfl, rfl, rfl⟩, rfl, rfl, rfl, rfl⟩

/-- The preparation: nothing, or the rest of the pot is set aside for the era of `payDelay` eras ago. -/
inductive PrepSpec (E : EPar) (F F' : Full) (now : Nat) : Prop where
  | idle (h : F' = F) (why : now ≤ E.payDelay ∨ F.points (now - E.payDelay) = 0)
  | set (late : E.payDelay < now) (pts : F.points (now - E.payDelay) ≠ 0) (frame : PrepFrame F F')
      (locked : F'.locked = F.locked + (potFunds E F - F.locked))
      (delayed : F'.delayed = upd F.delayed (now - E.payDelay) (some (potFunds E F - F.locked)))
      (aside : F'.aside = upd F.aside (now - E.payDelay) (potFunds E F - F.locked))

theorem preparePayouts_ok (E : EPar) (pub : Nat → Option Nat) (F : Full) (now : Nat) :
    PrepSpec E F (preparePayouts E pub F now) now := by
  unfold preparePayouts
  by_cases h1 : now ≤ E.payDelay
  · rw [if_pos h1]; exact .idle rfl (Or.inl h1)
  rw [if_neg h1]
  by_cases h2 : F.points (now - E.payDelay) = 0
  · rw [if_pos h2]; exact .idle rfl (Or.inr h2)
  rw [if_neg h2]
  dsimp only
  by_cases h3 : E.growthEnabled = true
  · rw [if_pos h3]
    have hf := updatePayout_frame E pub
      { F with staked := upd F.staked (now - E.payDelay) 0, locked := F.locked + (potFunds E F - F.locked),
               delayed := upd F.delayed (now - E.payDelay) (some (potFunds E F - F.locked)),
               aside := upd F.aside (now - E.payDelay) (potFunds E F - F.locked) }
      (now - E.payDelay) (F.staked (now - E.payDelay)) (potFunds E F - F.locked) (F.points (now - E.payDelay)) (F.awarded (now - E.payDelay))
    refine .set (by omega) h2 ?_ hf.locked hf.delayed hf.aside
    exact ⟨hf.prep.led, hf.prep.first, hf.prep.length, hf.prep.force, hf.prep.totalSelected, hf.prep.selected, hf.prep.atStake,
      hf.prep.points, hf.prep.awarded, hf.prep.processed, hf.prep.paid, hf.prep.served, hf.prep.payouts⟩
  · rw [if_neg h3]
    exact .set (by omega) h2 ⟨rfl, rfl, rfl, rfl, rfl, rfl, rfl, rfl, rfl, rfl, rfl, rfl, rfl⟩ rfl rfl rfl

theorem PrepSpec.frame {now : Nat} (h : PrepSpec E F F' now) : PrepFrame F F' := by
  cases h with
  | idle h => subst h; exact PrepFrame.refl _
  | set _ _ f => exact f

/-! ### The choice of collators -/

/-- What the choice of collators yields: nobody qualified and everything of the last era stays, or the top candidates with their
snapshots. -/
inductive SelSpec (F F' : Full) (e : Nat) : Prop where
  | kept (noOne : topCandidates F.led F.totalSelected = [])
      (now : F' = { F with atStake := upd F.atStake e ((F.atStake (e - 1)).foldl (fun l p => alPut l p.1 p.2) (F.atStake e)) })
  | chosen (someOne : topCandidates F.led F.totalSelected ≠ []) (l : List (Nat × Snap))
      (now : F' = { F with atStake := upd F.atStake e l, selected := topCandidates F.led F.totalSelected })
      (keys : ∀ c, c ∈ l.map Prod.fst ↔ c ∈ topCandidates F.led F.totalSelected ∨ c ∈ (F.atStake e).map Prod.fst)
      (nodup : ((F.atStake e).map Prod.fst).Nodup → (l.map Prod.fst).Nodup)
      (snap : ∀ x ∈ l, x ∈ F.atStake e ∨ ∃ r, F.led.cands x.1 = some r ∧ x.2 = snapshot F.led x.1 r)

theorem foldPut_keys {α : Type _} (l : List (Nat × α)) (m : List (Nat × α)) (c : Nat) :
    c ∈ (l.foldl (fun l p => alPut l p.1 p.2) m).map Prod.fst ↔ c ∈ l.map Prod.fst ∨ c ∈ m.map Prod.fst := by
  induction l generalizing m with
  | nil => simp
  | cons p l ih =>
    rw [List.foldl_cons, ih, alPut_key_mem, List.map_cons, List.mem_cons]
    constructor
    · rintro (h | h | h)
      · exact Or.inl (Or.inr h)
      · exact Or.inl (Or.inl h)
      · exact Or.inr h
    · rintro ((h | h) | h)
      · exact Or.inr (Or.inl h)
      · exact Or.inl h
      · exact Or.inr (Or.inr h)

theorem foldPut_nodup {α : Type _} (l : List (Nat × α)) (m : List (Nat × α)) (h : (m.map Prod.fst).Nodup) :
    ((l.foldl (fun l p => alPut l p.1 p.2) m).map Prod.fst).Nodup := by
  induction l generalizing m with
  | nil => exact h
  | cons p l ih => exact ih _ (alPut_nodup h)

theorem foldPut_mem {α : Type _} (l : List (Nat × α)) (m : List (Nat × α)) (x : Nat × α)
    (h : x ∈ l.foldl (fun l p => alPut l p.1 p.2) m) : x ∈ l ∨ x ∈ m := by
  induction l generalizing m with
  | nil => exact Or.inr h
  | cons p l ih =>
    rcases ih _ h with h | h
    · exact Or.inl (List.mem_cons_of_mem _ h)
    · rcases alPut_mem h with h | h
      · exact Or.inl (by rw [h]; exact List.mem_cons_self ..)
      · exact Or.inr h

theorem foldSelect_ok (s : St) (l : List Nat) (m : List (Nat × Snap)) (hc : ∀ c ∈ l, (s.cands c).isSome = true) :
    ∃ k, l.foldl (selectStep s) (some m) = some k ∧ (∀ c, c ∈ k.map Prod.fst ↔ c ∈ l ∨ c ∈ m.map Prod.fst) ∧
      ((m.map Prod.fst).Nodup → (k.map Prod.fst).Nodup) ∧ (∀ x ∈ k, x ∈ m ∨ ∃ r, s.cands x.1 = some r ∧ x.2 = snapshot s x.1 r) := by
  induction l generalizing m with
  | nil => exact ⟨m, rfl, by simp, id, fun x h => Or.inl h⟩
  | cons c l ih =>
    obtain ⟨r, hr⟩ := Option.isSome_iff_exists.1 (hc c (List.mem_cons_self ..))
    obtain ⟨k, h1, h2, h3, h4⟩ := ih (alPut m c (snapshot s c r)) (fun d hd => hc d (List.mem_cons_of_mem _ hd))
    refine ⟨k, ?_, ?_, ?_, ?_⟩
    · rw [List.foldl_cons]
      have : selectStep s (some m) c = some (alPut m c (snapshot s c r)) := by
        show (match s.cands c with | none => none | some r => some (alPut m c (snapshot s c r))) = _
        rw [hr]
      rw [this]
      exact h1
    · intro d
      rw [h2, alPut_key_mem, List.mem_cons]
      constructor
      · rintro (h | h | h)
        · exact Or.inl (Or.inr h)
        · exact Or.inl (Or.inl h)
        · exact Or.inr h
      · rintro ((h | h) | h)
        · exact Or.inr (Or.inl h)
        · exact Or.inl h
        · exact Or.inr (Or.inr h)
    · intro hn; exact h3 (alPut_nodup hn)
    · intro x hx
      rcases h4 x hx with h | h
      · rcases alPut_mem h with h | h
        · refine Or.inr ⟨r, ?_, ?_⟩ <;> rw [h]
          exact hr
        · exact Or.inl h
      · exact Or.inr h

/-- The choice of collators succeeds, as long as the ledger is consistent and the present collators have snapshots. -/
theorem selectTop_ok (h : Inv E.par F.led) (e : Nat) (hs : ∀ c ∈ F.selected, c ∈ (F.atStake (e - 1)).map Prod.fst) :
    ∃ F', selectTop E F e = some F' ∧ SelSpec F F' e := by
  unfold selectTop
  dsimp only
  by_cases ht : topCandidates F.led F.totalSelected = []
  · rw [if_pos ht, if_pos]
    · exact ⟨_, rfl, .kept ht rfl⟩
    · rw [List.all_eq_true]
      intro c hc
      exact alHas_iff.2 (hs c hc)
  · rw [if_neg ht]
    obtain ⟨k, h1, h2, h3, h4⟩ := foldSelect_ok F.led (topCandidates F.led F.totalSelected) (F.atStake e) (by
      intro c hc
      obtain ⟨x, hx, rfl⟩ := (topCandidates_mem _ _).1 hc
      exact h.g.c.dom x (chosen_mem _ _ hx).1)
    rw [h1]
    dsimp only
    rw [if_pos (Nat.le_trans (topCandidates_length_pool _ _) h.g.c.len)]
    exact ⟨_, rfl, .chosen ht k rfl h2 h3 h4⟩

/-- What the choice of collators never touches. -/
structure SelFrame (F F' : Full) (e : Nat) : Prop where
  led : F'.led = F.led
  first : F'.first = F.first
  length : F'.length = F.length
  force : F'.force = F.force
  totalSelected : F'.totalSelected = F.totalSelected
  atStake : ∀ d, d ≠ e → F'.atStake d = F.atStake d
  staked : F'.staked = F.staked
  points : F'.points = F.points
  awarded : F'.awarded = F.awarded
  delayed : F'.delayed = F.delayed
  locked : F'.locked = F.locked
  gpIndex : F'.gpIndex = F.gpIndex
  growth : F'.growth = F.growth
  processed : F'.processed = F.processed
  paid : F'.paid = F.paid
  aside : F'.aside = F.aside
  served : F'.served = F.served
  sent : F'.sent = F.sent
  payouts : F'.payouts = F.payouts

theorem SelSpec.frame {e : Nat} (h : SelSpec F F' e) : SelFrame F F' e := by
  cases h with
  | kept _ h =>
    subst h
    exact ⟨rfl, rfl, rfl, rfl, rfl, fun d hd => upd_ne _ _ hd, rfl, rfl, rfl, rfl, rfl, rfl, rfl, rfl, rfl, rfl, rfl, rfl, rfl⟩
  | chosen _ l h =>
    subst h
    exact ⟨rfl, rfl, rfl, rfl, rfl, fun d hd => upd_ne _ _ hd, rfl, rfl, rfl, rfl, rfl, rfl, rfl, rfl, rfl, rfl, rfl, rfl, rfl⟩

/-- All chosen collators have snapshots. -/
theorem SelSpec.sel {e : Nat} (he : 0 < e) (h : SelSpec F F' e) (hs : ∀ c ∈ F.selected, c ∈ (F.atStake (e - 1)).map Prod.fst) :
    ∀ c ∈ F'.selected, c ∈ (F'.atStake e).map Prod.fst := by
  cases h with
  | kept _ h =>
    subst h
    intro c hc
    show c ∈ ((upd F.atStake e _) e).map Prod.fst
    rw [upd_same, foldPut_keys]
    exact Or.inl (hs c hc)
  | chosen _ l h hk =>
    subst h
    intro c hc
    show c ∈ ((upd F.atStake e _) e).map Prod.fst
    rw [upd_same, hk]
    exact Or.inl hc

/-! ### Starting an era -/

/-- Starting an era, in its three parts. -/
structure StartSpec (E : EPar) (pub : Nat → Option Nat) (F F' : Full) (now : Nat) : Prop where
  ex : ∃ F1 F2, F1 = (if E.par.enabled then preparePayouts E pub F (F.led.era + 1) else F) ∧ SelSpec F1 F2 (F.led.era + 1) ∧
    F' = { F2 with led := { F2.led with era := F.led.era + 1 }, first := now, staked := upd F2.staked (F.led.era + 1) F2.led.total }

theorem prepIf_frame (E : EPar) (pub : Nat → Option Nat) (F : Full) (e : Nat) :
    PrepFrame F (if E.par.enabled then preparePayouts E pub F e else F) := by
  by_cases h : E.par.enabled = true
  · rw [if_pos h]; exact (preparePayouts_ok E pub F e).frame
  · rw [if_neg h]; exact PrepFrame.refl F

theorem startEra_ok (h : Inv E.par F.led) (hs : ∀ c ∈ F.selected, c ∈ (F.atStake F.led.era).map Prod.fst) (now : Nat) :
    ∃ F', startEra E pub F now = some F' ∧ StartSpec E pub F F' now := by
  unfold startEra
  dsimp only
  have hf := prepIf_frame E pub F (F.led.era + 1)
  obtain ⟨F2, h1, h2⟩ := selectTop_ok (E := E) (F := if E.par.enabled then preparePayouts E pub F (F.led.era + 1) else F)
    (by rw [hf.led]; exact h) (F.led.era + 1) (by rw [hf.selected, hf.atStake]; exact hs)
  rw [h1]
  exact ⟨_, rfl, ⟨⟨_, F2, rfl, h2, rfl⟩⟩⟩

theorem startEra_spec {now : Nat} (h : Inv E.par F.led) (hs : ∀ c ∈ F.selected, c ∈ (F.atStake F.led.era).map Prod.fst)
    (ho : startEra E pub F now = some F') : StartSpec E pub F F' now := by
  obtain ⟨G, h1, h2⟩ := startEra_ok (pub := pub) h hs now
  rw [h1] at ho
  injection ho with ho
  subst ho
  exact h2

/-! ### Payments -/

/-- Paying a reward changes balances, the locked amount and the log, nothing else. -/
theorem payReward_eq (E : EPar) (e c : Nat) (F : Full) (x : Nat × Nat) : ∃ f k p,
    payReward E e c F x = { F with led := { F.led with free := f }, locked := k, paid := p } := by
  unfold payReward
  by_cases h1 : x.2 = 0 ∨ x.1 = E.pot
  · rw [if_pos h1]; exact ⟨F.led.free, _, _, rfl⟩
  rw [if_neg h1]
  by_cases h2 : F.led.free E.pot < x.2 + E.ed ∨ F.led.free x.1 + x.2 < E.ed
  · rw [if_pos h2]; exact ⟨F.led.free, F.locked, F.paid, rfl⟩
  rw [if_neg h2]
  exact ⟨_, _, _, rfl⟩

theorem payRewards_eq (E : EPar) (e c : Nat) (l : List (Nat × Nat)) (F : Full) : ∃ f k p,
    l.foldl (payReward E e c) F = { F with led := { F.led with free := f }, locked := k, paid := p } := by
  induction l generalizing F with
  | nil => exact ⟨F.led.free, F.locked, F.paid, rfl⟩
  | cons x l ih =>
    obtain ⟨f, k, p, h⟩ := payReward_eq E e c F x
    obtain ⟨f', k', p', h'⟩ := ih (payReward E e c F x)
    refine ⟨f', k', p', ?_⟩
    rw [List.foldl_cons, h', h]

theorem payReward_led (E : EPar) (e c : Nat) (F : Full) (x : Nat × Nat) : LedRun E.par F.led (payReward E e c F x).led := by
  unfold payReward
  by_cases h1 : x.2 = 0 ∨ x.1 = E.pot
  · rw [if_pos h1]; exact LedRun.refl _ _
  rw [if_neg h1]
  by_cases h2 : F.led.free E.pot < x.2 + E.ed ∨ F.led.free x.1 + x.2 < E.ed
  · rw [if_pos h2]; exact LedRun.refl _ _
  rw [if_neg h2]
  exact (LedRun.free E.par F.led E.pot _).trans (LedRun.free E.par _ x.1 _)

theorem payRewards_led (E : EPar) (e c : Nat) (l : List (Nat × Nat)) (F : Full) :
    LedRun E.par F.led (l.foldl (payReward E e c) F).led := by
  induction l generalizing F with
  | nil => exact LedRun.refl _ _
  | cons x l ih => exact (payReward_led E e c F x).trans (ih _)

theorem payReward_pot (E : EPar) (e c : Nat) (F : Full) (x : Nat × Nat) (h : F.locked ≤ potFunds E F) :
    (payReward E e c F x).locked ≤ potFunds E (payReward E e c F x) := by
  unfold payReward
  by_cases h1 : x.2 = 0 ∨ x.1 = E.pot
  · rw [if_pos h1]; exact Nat.le_trans (Nat.sub_le _ _) h
  rw [if_neg h1]
  by_cases h2 : F.led.free E.pot < x.2 + E.ed ∨ F.led.free x.1 + x.2 < E.ed
  · rw [if_pos h2]; exact h
  rw [if_neg h2]
  unfold potFunds at h ⊢
  dsimp only
  have hne : E.pot ≠ x.1 := fun e => h1 (Or.inr e.symm)
  rw [upd_ne _ _ hne, upd_same]
  omega

theorem payRewards_pot (E : EPar) (e c : Nat) (l : List (Nat × Nat)) (F : Full) (h : F.locked ≤ potFunds E F) :
    (l.foldl (payReward E e c) F).locked ≤ potFunds E (l.foldl (payReward E e c) F) := by
  induction l generalizing F with
  | nil => exact h
  | cons x l ih => exact ih _ (payReward_pot E e c F x h)

/-- One collator is paid, or there is nobody left to pay. -/
inductive PayOneSpec (E : EPar) (F F' : Full) (e total : Nat) : Bool → Prop where
  | nobody (h : F' = F) (why : F.points e = 0 ∨ F.awarded e = []) : PayOneSpec E F F' e total false
  | paid (c pts : Nat) (mem : (c, pts) ∈ F.awarded e) (nz : F.points e ≠ 0)
      (now : F' = (rewardsOf c (perbillMul (ratio pts (F.points e)) total) (alGet (F.atStake e) c Snap.zero)).foldl (payReward E e c)
        { F with awarded := upd F.awarded e (alDel (F.awarded e) c), atStake := upd F.atStake e (alDel (F.atStake e) c),
                 served := F.served ++ [(e, c)] }) : PayOneSpec E F F' e total true

theorem payOne_ok (E : EPar) (F : Full) (e total pick : Nat) :
    PayOneSpec E F (payOne E F e total pick).1 e total (payOne E F e total pick).2 := by
  unfold payOne
  by_cases h1 : F.points e = 0
  · rw [if_pos h1]; exact .nobody rfl (Or.inl h1)
  rw [if_neg h1]
  cases hx : (F.awarded e)[pick % (F.awarded e).length]? with
  | none =>
    refine .nobody rfl (Or.inr ?_)
    rw [List.getElem?_eq_none_iff] at hx
    cases hl : F.awarded e with
    | nil => rfl
    | cons a l =>
      rw [hl] at hx
      have := Nat.mod_lt pick (y := (a :: l).length) (Nat.succ_pos _)
      omega
  | some x =>
    obtain ⟨c, pts⟩ := x
    exact .paid c pts (List.mem_of_getElem? hx) h1 rfl

/-- Handling delayed payouts: nothing is due, a collator is paid, or the payout ends. -/
inductive HandleSpec (E : EPar) (F F' : Full) (e : Nat) : Prop where
  | idle (h : F' = F) (why : e < E.payDelay ∨ F.delayed (e - E.payDelay) = none)
  | paid (late : E.payDelay ≤ e) (total : Nat) (due : F.delayed (e - E.payDelay) = some total)
      (h : PayOneSpec E F F' (e - E.payDelay) total true)
  | ended (late : E.payDelay ≤ e) (total : Nat) (due : F.delayed (e - E.payDelay) = some total)
      (why : F.points (e - E.payDelay) = 0 ∨ F.awarded (e - E.payDelay) = [])
      (h : F' = { F with delayed := upd F.delayed (e - E.payDelay) none, points := upd F.points (e - E.payDelay) 0 })

theorem handlePayouts_ok (E : EPar) (F : Full) (e pick : Nat) : HandleSpec E F (handlePayouts E F e pick) e := by
  unfold handlePayouts
  by_cases h1 : e < E.payDelay
  · rw [if_pos h1]; exact .idle rfl (Or.inl h1)
  rw [if_neg h1]
  cases hd : F.delayed (e - E.payDelay) with
  | none => exact .idle rfl (Or.inr hd)
  | some total =>
    dsimp only
    have hp := payOne_ok E F (e - E.payDelay) total pick
    generalize hr : payOne E F (e - E.payDelay) total pick = r at hp
    obtain ⟨G, b⟩ := r
    cases b with
    | true => exact .paid (by omega) total hd hp
    | false =>
      dsimp only at hp ⊢
      cases hp with
      | nobody h why => subst h; exact .ended (by omega) total hd why rfl

/-- What paying staking rewards never touches. -/
structure PayFrame (F F' : Full) : Prop where
  cands : F'.led.cands = F.led.cands
  pool : F'.led.pool = F.led.pool
  era : F'.led.era = F.led.era
  total : F'.led.total = F.led.total
  minCollator : F'.led.minCollator = F.led.minCollator
  first : F'.first = F.first
  length : F'.length = F.length
  force : F'.force = F.force
  totalSelected : F'.totalSelected = F.totalSelected
  selected : F'.selected = F.selected
  gpIndex : F'.gpIndex = F.gpIndex
  growth : F'.growth = F.growth
  processed : F'.processed = F.processed
  aside : F'.aside = F.aside
  sent : F'.sent = F.sent
  payouts : F'.payouts = F.payouts

theorem HandleSpec.frame {e : Nat} (h : HandleSpec E F F' e) : PayFrame F F' := by
  cases h with
  | idle h => subst h; exact ⟨rfl, rfl, rfl, rfl, rfl, rfl, rfl, rfl, rfl, rfl, rfl, rfl, rfl, rfl, rfl, rfl⟩
  | ended _ _ _ _ h => subst h; exact ⟨rfl, rfl, rfl, rfl, rfl, rfl, rfl, rfl, rfl, rfl, rfl, rfl, rfl, rfl, rfl, rfl⟩
  | paid _ total _ h =>
    cases h with
    | paid c pts _ _ now =>
      obtain ⟨f, k, p, hq⟩ := payRewards_eq E (e - E.payDelay) c
        (rewardsOf c (perbillMul (ratio pts (F.points (e - E.payDelay))) total) (alGet (F.atStake (e - E.payDelay)) c Snap.zero))
        { F with awarded := upd F.awarded (e - E.payDelay) (alDel (F.awarded (e - E.payDelay)) c),
                 atStake := upd F.atStake (e - E.payDelay) (alDel (F.atStake (e - E.payDelay)) c),
                 served := F.served ++ [(e - E.payDelay, c)] }
      rw [hq] at now
      subst now
      exact ⟨rfl, rfl, rfl, rfl, rfl, rfl, rfl, rfl, rfl, rfl, rfl, rfl, rfl, rfl, rfl, rfl⟩

theorem HandleSpec.led {e : Nat} (h : HandleSpec E F F' e) : LedRun E.par F.led F'.led := by
  cases h with
  | idle h => subst h; exact LedRun.refl _ _
  | ended _ _ _ _ h => subst h; exact LedRun.refl _ _
  | paid _ total _ h =>
    cases h with
    | paid c pts _ _ now => subst now; exact payRewards_led E _ c _ _

/-- Snapshots of other eras stay, and no snapshot appears. -/
theorem HandleSpec.atStake {e : Nat} (h : HandleSpec E F F' e) :
    (∀ d, d ≠ e - E.payDelay → F'.atStake d = F.atStake d) ∧ (∀ d, (F'.atStake d).Sublist (F.atStake d)) := by
  cases h with
  | idle h => subst h; exact ⟨fun _ _ => rfl, fun _ => List.Sublist.refl _⟩
  | ended _ _ _ _ h => subst h; exact ⟨fun _ _ => rfl, fun _ => List.Sublist.refl _⟩
  | paid _ total _ h =>
    cases h with
    | paid c pts _ _ now =>
      obtain ⟨f, k, p, hq⟩ := payRewards_eq E (e - E.payDelay) c
        (rewardsOf c (perbillMul (ratio pts (F.points (e - E.payDelay))) total) (alGet (F.atStake (e - E.payDelay)) c Snap.zero))
        { F with awarded := upd F.awarded (e - E.payDelay) (alDel (F.awarded (e - E.payDelay)) c),
                 atStake := upd F.atStake (e - E.payDelay) (alDel (F.atStake (e - E.payDelay)) c),
                 served := F.served ++ [(e - E.payDelay, c)] }
      rw [hq] at now
      subst now
      refine ⟨fun d hd => upd_ne _ _ hd, fun d => ?_⟩
      show ((upd F.atStake _ _) d).Sublist _
      by_cases hd : d = e - E.payDelay
      · subst hd; rw [upd_same]; exact alDel_sub
      · rw [upd_ne _ _ hd]; exact List.Sublist.refl _

theorem HandleSpec.pot {e : Nat} (h : HandleSpec E F F' e) (hp : F.locked ≤ potFunds E F) : F'.locked ≤ potFunds E F' := by
  cases h with
  | idle h => subst h; exact hp
  | ended _ _ _ _ h => subst h; exact hp
  | paid _ total _ h =>
    cases h with
    | paid c pts _ _ now => subst now; exact payRewards_pot E _ c _ _ hp

/-! ### The core invariant -/

/-- The ledger is consistent, an era has a positive length, the present collators have snapshots, the pot covers what is locked. -/
structure Core (E : EPar) (F : Full) : Prop where
  led : Inv E.par F.led
  era : 1 ≤ F.led.era
  len : 1 ≤ F.length
  sel : ∀ c ∈ F.selected, c ∈ (F.atStake F.led.era).map Prod.fst
  pot : F.locked ≤ potFunds E F

theorem LedRun.inv {P : Par} {s s' : St} (hP : P.Ok) (hmax : 1 ≤ P.maxPer) (h : Inv P s) (hr : LedRun P s s') : Inv P s' := by
  obtain ⟨ops, rfl⟩ := hr
  exact run_inv hP hmax h ops

theorem Core.note (h : Core E F) (a : Nat) : Core E (noteAuthor F a) := ⟨h.led, h.era, h.len, h.sel, h.pot⟩

theorem PrepSpec.pot {now : Nat} (h : PrepSpec E F F' now) (hp : F.locked ≤ potFunds E F) : F'.locked ≤ potFunds E F' := by
  cases h with
  | idle h => subst h; exact hp
  | set _ _ f hl =>
    unfold potFunds at hp hl ⊢
    rw [hl, f.led]
    omega

theorem StartSpec.core {now : Nat} (h : Core E F) (hs : StartSpec E pub F F' now) : Core E F' := by
  obtain ⟨F1, F2, h1, h2, h3⟩ := hs.ex
  have hf : PrepFrame F F1 := by rw [h1]; exact prepIf_frame ..
  have hg := h2.frame
  have hpot : F1.locked ≤ potFunds E F1 := by
    rw [h1]
    by_cases he : E.par.enabled = true
    · rw [if_pos he]; exact (preparePayouts_ok E pub F _).pot h.pot
    · rw [if_neg he]; exact h.pot
  have hsel := h2.sel (Nat.succ_pos _) (by rw [hf.selected, hf.atStake]; exact h.sel)
  subst h3
  refine ⟨?_, Nat.succ_le_succ (Nat.zero_le _), ?_, hsel, ?_⟩
  · show Inv E.par { F2.led with era := F.led.era + 1 }
    rw [hg.led, hf.led]
    exact h.led.other F.led.free _
  · show 1 ≤ F2.length
    rw [hg.length, hf.length]
    exact h.len
  · show F2.locked ≤ F2.led.free E.pot - E.ed
    rw [hg.locked, hg.led]
    exact hpot

theorem HandleSpec.core (hP : E.par.Ok) (hmax : 1 ≤ E.par.maxPer) (hd : 1 ≤ E.payDelay) {e : Nat} (he : e = F.led.era) (h : Core E F)
    (hs : HandleSpec E F F' e) : Core E F' := by
  have hf := hs.frame
  refine ⟨hs.led.inv hP hmax h.led, by rw [hf.era]; exact h.era, by rw [hf.length]; exact h.len, ?_, hs.pot h.pot⟩
  rw [hf.selected, hf.era, hs.atStake.1 F.led.era (by have := h.era; omega)]
  exact h.sel

/-! ### Paying out growth -/

theorem mintAll_eq (l : List (Nat × Nat)) (F : Full) : ∃ f, (mintAll l F).1 = { F with led := { F.led with free := f } } ∧
    (∀ a, F.led.free a ≤ f a) := by
  induction l generalizing F with
  | nil => exact ⟨F.led.free, rfl, fun _ => Nat.le_refl _⟩
  | cons x l ih =>
    unfold mintAll
    by_cases h : F.led.free x.1 = 0
    · rw [if_pos h]; exact ⟨F.led.free, rfl, fun _ => Nat.le_refl _⟩
    · rw [if_neg h]
      obtain ⟨f, h1, h2⟩ := ih { F with led := { F.led with free := upd F.led.free x.1 (F.led.free x.1 + x.2) } }
      refine ⟨f, h1, ?_⟩
      intro a
      refine Nat.le_trans ?_ (h2 a)
      show F.led.free a ≤ upd F.led.free x.1 _ a
      by_cases e : a = x.1
      · subst e; rw [upd_same]; exact Nat.le_add_right _ _
      · rw [upd_ne _ _ e]; exact Nat.le_refl _

theorem mintAll_led (P : Par) (l : List (Nat × Nat)) (F : Full) : LedRun P F.led (mintAll l F).1.led := by
  induction l generalizing F with
  | nil => exact LedRun.refl _ _
  | cons x l ih =>
    unfold mintAll
    by_cases h : F.led.free x.1 = 0
    · rw [if_pos h]; exact LedRun.refl _ _
    · rw [if_neg h]
      exact (LedRun.free P F.led x.1 _).trans (ih { F with led := { F.led with free := upd F.led.free x.1 (F.led.free x.1 + x.2) } })

theorem dustTo_eq (E : EPar) (F : Full) (d : Nat) : ∃ f, dustTo E F d = { F with led := { F.led with free := f } } ∧
    (∀ a, F.led.free a ≤ f a) := by
  unfold dustTo
  by_cases h : d = 0 ∨ F.led.free E.treasury = 0
  · rw [if_pos h]; exact ⟨F.led.free, rfl, fun _ => Nat.le_refl _⟩
  · rw [if_neg h]
    refine ⟨_, rfl, ?_⟩
    intro a
    by_cases e : a = E.treasury
    · subst e; rw [upd_same]; exact Nat.le_add_right _ _
    · rw [upd_ne _ _ e]; exact Nat.le_refl _

theorem dustTo_led (E : EPar) (F : Full) (d : Nat) : LedRun E.par F.led (dustTo E F d).led := by
  unfold dustTo
  by_cases h : d = 0 ∨ F.led.free E.treasury = 0
  · rw [if_pos h]; exact LedRun.refl _ _
  · rw [if_neg h]; exact LedRun.free _ _ _ _

/-- A growth period is marked as paid out. -/
def Full.close (F : Full) (period amount : Nat) : Full :=
  { F with growth := upd F.growth period none, processed := upd F.processed period true, payouts := F.payouts ++ [(period, amount)] }

/-- Other balances. -/
def Full.withFree (F : Full) (f : Nat → Nat) : Full := { F with led := { F.led with free := f } }

/-- Paying out a growth period: refused as already processed, failed on the way, or completed. -/
inductive GrowthSpec (E : EPar) (F F' : Full) (amount period : Nat) : Bool → Prop where
  | refused (was : F.processed period = true) (h : F' = F) : GrowthSpec E F F' amount period false
  | failed (was : F.processed period = false) (f : Nat → Nat) (h : F' = F.withFree f)
      (mono : ∀ a, F.led.free a ≤ f a) : GrowthSpec E F F' amount period false
  | done (was : F.processed period = false) (f : Nat → Nat)
      (h : F' = (F.withFree f).close period amount)
      (mono : ∀ a, F.led.free a ≤ f a) : GrowthSpec E F F' amount period true

theorem payoutGrowth_ok (E : EPar) (F : Full) (amount period : Nat) :
    GrowthSpec E F (payoutGrowth E F amount period).1 amount period (payoutGrowth E F amount period).2 ∧
    LedRun E.par F.led (payoutGrowth E F amount period).1.led := by
  unfold payoutGrowth
  by_cases h1 : F.processed period = true
  · rw [if_pos h1]; exact ⟨.refused h1 rfl, LedRun.refl _ _⟩
  rw [if_neg h1]
  dsimp only
  have hb : F.processed period = false := by cases h : F.processed period <;> simp_all
  obtain ⟨f, hm, hmono⟩ := mintAll_eq (growthShares F amount period) F
  have hl := mintAll_led E.par (growthShares F amount period) F
  by_cases h2 : (mintAll (growthShares F amount period) F).2.2 = false
  · rw [if_pos h2]; exact ⟨.failed hb f hm hmono, hl⟩
  rw [if_neg h2]
  generalize mintAll (growthShares F amount period) F = r at *
  obtain ⟨G, paid, ok⟩ := r
  dsimp only at *
  subst hm
  obtain ⟨f2, hd, hmono2⟩ := dustTo_eq E ((F.withFree f).close period amount) (amount - paid)
  constructor
  · exact .done hb f2 hd (fun a => Nat.le_trans (hmono a) (hmono2 a))
  · exact hl.trans (dustTo_led E ((F.withFree f).close period amount) (amount - paid))

theorem potFunds_mono (E : EPar) (F : Full) {f : Nat → Nat} (h : ∀ a, F.led.free a ≤ f a) (hp : F.locked ≤ potFunds E F) :
    F.locked ≤ f E.pot - E.ed := by
  unfold potFunds at hp
  have := h E.pot
  omega

theorem GrowthSpec.core (hP : E.par.Ok) (hmax : 1 ≤ E.par.maxPer) {amount period : Nat} {b : Bool} (h : Core E F)
    (hs : GrowthSpec E F F' amount period b) (hl : LedRun E.par F.led F'.led) : Core E F' := by
  have hi := hl.inv hP hmax h.led
  cases hs with
  | refused _ e => subst e; exact h
  | failed _ f e m => subst e; exact ⟨hi, h.era, h.len, h.sel, potFunds_mono E F m h.pot⟩
  | done _ f e m => subst e; exact ⟨hi, h.era, h.len, h.sel, potFunds_mono E F m h.pot⟩

/-! ### Blocks -/

/-- The hooks of a block: the author's points, then possibly a new era, then a payment. -/
inductive BlockSpec (E : EPar) (pub : Nat → Option Nat) (F F' : Full) (now author : Nat) : Prop where
  | same (notDue : shouldUpdate F now = false) (notForced : F.force = false)
      (pay : if E.par.enabled then HandleSpec E (noteAuthor F author) F' F.led.era else F' = noteAuthor F author)
  | next (why : shouldUpdate F now = true ∨ F.force = true) (F1 : Full)
      (start : StartSpec E pub (if shouldUpdate F now then noteAuthor F author else { noteAuthor F author with force := false }) F1 now)
      (pay : if E.par.enabled then HandleSpec E F1 F' (F.led.era + 1) else F' = F1)

theorem StartSpec.era {now : Nat} (hs : StartSpec E pub F F' now) : F'.led.era = F.led.era + 1 ∧ F'.first = now ∧ F'.length = F.length ∧
    F'.force = F.force ∧ F'.totalSelected = F.totalSelected := by
  obtain ⟨F1, F2, h1, h2, h3⟩ := hs.ex
  have hf : PrepFrame F F1 := by rw [h1]; exact prepIf_frame ..
  have hg := h2.frame
  subst h3
  exact ⟨rfl, rfl, hg.length.trans hf.length, hg.force.trans hf.force, hg.totalSelected.trans hf.totalSelected⟩

theorem initHook_eq (F : Full) (now pick : Nat) (hE : E.par.enabled = true ∨ E.par.enabled = false) (F1 : Full)
    (h : (if shouldUpdate F now = true then startEra E pub F now else some F) = some F1) :
    initHook E pub F now pick = some (if E.par.enabled = true then handlePayouts E F1 F1.led.era pick else F1) := by
  unfold initHook
  rw [h]
  rfl

theorem handleIf_ok (E : EPar) (F1 : Full) (e pick : Nat) (he : F1.led.era = e) :
    if E.par.enabled = true then HandleSpec E F1 (if E.par.enabled = true then handlePayouts E F1 F1.led.era pick else F1) e
    else (if E.par.enabled = true then handlePayouts E F1 F1.led.era pick else F1) = F1 := by
  by_cases h : E.par.enabled = true
  · rw [if_pos h, if_pos h, ← he]; exact handlePayouts_ok E F1 _ pick
  · rw [if_neg h, if_neg h]

/-- The block hooks do not panic. -/
theorem blockHooks_ok (h : Core E F) (now author pick : Nat) :
    ∃ F', blockHooks E pub F now author pick = some F' ∧ BlockSpec E pub F F' now author := by
  have hE : E.par.enabled = true ∨ E.par.enabled = false := by cases E.par.enabled <;> simp
  have hn := h.note author
  unfold blockHooks sessionHook
  by_cases h1 : shouldUpdate F now = true
  · have h1' : shouldUpdate (noteAuthor F author) now = true := h1
    rw [if_pos h1']
    dsimp only
    obtain ⟨F1, hs1, hs2⟩ := startEra_ok (E := E) (pub := pub) hn.led hn.sel now
    rw [initHook_eq (noteAuthor F author) now pick hE F1 (by rw [if_pos h1']; exact hs1)]
    exact ⟨_, rfl, .next (Or.inl h1) F1 (by rw [if_pos h1]; exact hs2) (handleIf_ok E F1 _ pick hs2.era.1)⟩
  · have h1' : ¬ shouldUpdate (noteAuthor F author) now = true := h1
    rw [if_neg h1']
    by_cases h2 : F.force = true
    · have h2' : (noteAuthor F author).force = true := h2
      rw [if_pos h2']
      obtain ⟨F1, hs1, hs2⟩ := startEra_ok (E := E) (F := { noteAuthor F author with force := false }) (pub := pub) hn.led hn.sel now
      rw [hs1]
      dsimp only
      have hera := hs2.era
      have hno : ¬ shouldUpdate F1 now = true := by
        unfold shouldUpdate
        rw [decide_eq_true_eq, hera.2.1, hera.2.2.1, Nat.sub_self]
        have : 1 ≤ (noteAuthor F author).length := hn.len
        show ¬ (noteAuthor F author).length ≤ 0
        omega
      rw [initHook_eq F1 now pick hE F1 (by rw [if_neg hno])]
      exact ⟨_, rfl, .next (Or.inr h2) F1 (by rw [if_neg h1]; exact hs2) (handleIf_ok E F1 _ pick hs2.era.1)⟩
    · have h2' : ¬ (noteAuthor F author).force = true := h2
      rw [if_neg h2']
      dsimp only
      rw [initHook_eq (noteAuthor F author) now pick hE (noteAuthor F author) (by rw [if_neg h1'])]
      exact ⟨_, rfl, .same (by simpa using h1) (by simpa using h2) (handleIf_ok E (noteAuthor F author) _ pick rfl)⟩

theorem blockHooks_spec {now author pick : Nat} (h : Core E F) (ho : blockHooks E pub F now author pick = some F') :
    BlockSpec E pub F F' now author := by
  obtain ⟨G, h1, h2⟩ := blockHooks_ok (pub := pub) h now author pick
  rw [h1] at ho
  injection ho with ho
  subst ho
  exact h2

theorem BlockSpec.core (hP : E.par.Ok) (hmax : 1 ≤ E.par.maxPer) (hd : 1 ≤ E.payDelay) {now author : Nat} (h : Core E F)
    (hs : BlockSpec E pub F F' now author) : Core E F' := by
  have hn := h.note author
  cases hs with
  | same _ _ pay =>
    by_cases he : E.par.enabled = true
    · rw [if_pos he] at pay; exact pay.core hP hmax hd rfl hn
    · rw [if_neg he] at pay; rw [pay]; exact hn
  | next why F1 start pay =>
    have h1 : Core E F1 := by
      refine start.core ?_
      by_cases hw : shouldUpdate F now = true
      · rw [if_pos hw]; exact hn
      · rw [if_neg hw]; exact ⟨hn.led, hn.era, hn.len, hn.sel, hn.pot⟩
    have hera : F1.led.era = F.led.era + 1 := by
      have := start.era.1
      by_cases hw : shouldUpdate F now = true
      · rw [if_pos hw] at this; exact this
      · rw [if_neg hw] at this; exact this
    by_cases he : E.par.enabled = true
    · rw [if_pos he] at pay; exact pay.core hP hmax hd hera.symm h1
    · rw [if_neg he] at pay; rw [pay]; exact h1

/-! ### All steps -/

/-- What an accepted ledger call does to balances, as far as the pot is concerned. -/
theorem call_pot (hP : E.par.Ok) (hmax : 1 ≤ E.par.maxPer) {s s' : St} {op : Op} (h : Inv E.par s) (ha : op.allowed E s = true)
    (ho : call E.par s op = some s') : s.free E.pot ≤ s'.free E.pot ∧ s'.era = s.era := by
  have hs := call_ok hP hmax h ho
  constructor
  · rcases hs.free with e | ⟨a, v, rfl, e⟩
    · rw [e]; exact Nat.le_refl _
    · rw [e]
      by_cases hh : E.pot = a
      · subst hh
        rw [upd_same]
        exact of_decide_eq_true ha rfl
      · rw [upd_ne _ _ hh]; exact Nat.le_refl _
  · rcases hs.era with e | ⟨rfl, _⟩
    · exact e
    · cases ha

theorem eCall_core (hP : E.par.Ok) (hmax : 1 ≤ E.par.maxPer) (hd : 1 ≤ E.payDelay) (hb : 1 ≤ E.minBlocks) (h : Core E F) {op : EOp}
    (ho : eCall E F op = some F') : Core E F' := by
  cases op with
  | block pub now author pick => exact (blockHooks_spec h ho).core hP hmax hd h
  | ledger op =>
    have ho : (if op.allowed E F.led then (call E.par F.led op).map (fun s => { F with led := s }) else none) = some F' := ho
    by_cases ha : op.allowed E F.led = true
    · rw [if_pos ha] at ho
      cases hc : call E.par F.led op with
      | none => rw [hc] at ho; cases ho
      | some s =>
        rw [hc] at ho
        have ho : some { F with led := s } = some F' := ho
        injection ho with ho
        subst ho
        obtain ⟨h1, h2⟩ := call_pot hP hmax h.led ha hc
        refine ⟨(call_ok hP hmax h.led hc).inv, ?_, h.len, ?_, ?_⟩
        · show 1 ≤ s.era; rw [h2]; exact h.era
        · show ∀ c ∈ F.selected, c ∈ (F.atStake s.era).map Prod.fst; rw [h2]; exact h.sel
        · have := h.pot
          show F.locked ≤ s.free E.pot - E.ed
          unfold potFunds at this
          omega
    · rw [if_neg ha] at ho; cases ho
  | setTotalSelected v =>
    have ho : setTotalSelected E F v = some F' := ho
    unfold setTotalSelected at ho
    by_cases hc : E.minSelected ≤ v ∧ F.totalSelected ≠ v ∧ v ≤ F.length
    · rw [if_pos hc] at ho; injection ho with ho; subst ho; exact ⟨h.led, h.era, h.len, h.sel, h.pot⟩
    · rw [if_neg hc] at ho; cases ho
  | setBlocksPerEra v =>
    have ho : setBlocksPerEra E F v = some F' := ho
    unfold setBlocksPerEra at ho
    by_cases hc : E.minBlocks ≤ v ∧ F.length ≠ v ∧ F.totalSelected ≤ v
    · rw [if_pos hc] at ho; injection ho with ho; subst ho; exact ⟨h.led, h.era, Nat.le_trans hb hc.1, h.sel, h.pot⟩
    · rw [if_neg hc] at ho; cases ho
  | forceEra =>
    have ho : some { F with force := true } = some F' := ho
    injection ho with ho; subst ho; exact ⟨h.led, h.era, h.len, h.sel, h.pot⟩
  | bridgeResult tx ok =>
    have ho : some (bridgeResult F tx ok) = some F' := ho
    injection ho with ho
    subst ho
    unfold bridgeResult
    cases F.published tx with
    | none => exact h
    | some p => exact ⟨h.led, h.era, h.len, h.sel, h.pot⟩
  | growthLifted amount period =>
    have ho : some (payoutGrowth E F amount period).1 = some F' := ho
    injection ho with ho
    subst ho
    obtain ⟨h1, h2⟩ := payoutGrowth_ok E F amount period
    exact h1.core hP hmax h h2

theorem eStep_core (hP : E.par.Ok) (hmax : 1 ≤ E.par.maxPer) (hd : 1 ≤ E.payDelay) (hb : 1 ≤ E.minBlocks) (h : Core E F) (op : EOp) :
    Core E (eStep E F op) := by
  unfold eStep
  cases ho : eCall E F op with
  | none => exact h
  | some F' => exact eCall_core hP hmax hd hb h ho

theorem eRun_snoc (E : EPar) (F : Full) (ops : List EOp) (op : EOp) : eRun E F (ops ++ [op]) = eStep E (eRun E F ops) op := by
  unfold eRun; rw [List.foldl_append]; rfl

theorem eRun_append (E : EPar) (F : Full) (a b : List EOp) : eRun E F (a ++ b) = eRun E (eRun E F a) b := by
  unfold eRun; rw [List.foldl_append]

theorem eRun_core (hP : E.par.Ok) (hmax : 1 ≤ E.par.maxPer) (hd : 1 ≤ E.payDelay) (hb : 1 ≤ E.minBlocks) (h : Core E F) (ops : List EOp) :
    Core E (eRun E F ops) := by
  induction ops generalizing F with
  | nil => exact h
  | cons op ops ih => exact ih (eStep_core hP hmax hd hb h op)

/-- Genesis. -/
theorem genesis_core {led : St} (h : Inv E.par led) (he : led.era = 1) :
    ∃ F, genesis E led = some F ∧ Core E F := by
  unfold genesis
  obtain ⟨F, h1, h2⟩ := selectTop_ok (E := E) (F := blank E led) h 1 (by intro c hc; cases hc)
  refine ⟨F, h1, ?_⟩
  have hf := h2.frame
  have hsel := h2.sel Nat.one_pos (by intro c hc; cases hc)
  refine ⟨by rw [hf.led]; exact h, by rw [hf.led]; exact Nat.le_of_eq he.symm, by rw [hf.length]; show 1 ≤ E.minBlocks + 2; omega, ?_, ?_⟩
  · rw [hf.led]
    show ∀ c ∈ F.selected, c ∈ (F.atStake led.era).map Prod.fst
    rw [he]
    exact hsel
  · rw [hf.locked]; exact Nat.zero_le _

end Verif.Staking
