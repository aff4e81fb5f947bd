import Verif.Lemmas.StakingEra5
import Verif.Props.StakingEra
import Mathlib.Data.List.Induction

/-!
# C48, C50, C76, C77: who is paid what, and when

Statements are about every state reached by a history of blocks, ledger calls, admin calls, bridge results and lifted growths from a
genesis state.
-/

namespace Verif.Staking

/-! ### Specification -/

/-- What was paid to collators and nominators for an era. -/
def paidFor (F : Full) (e : Nat) : Nat := ((F.paid.filter (fun p => decide (p.era = e))).map Payment.amount).sum

/-- The number of payments for an era. -/
def paymentsFor (F : Full) (e : Nat) : Nat := (F.paid.filter (fun p => decide (p.era = e))).length

/-- The number of collators of an era that had their turn. -/
def collatorsFor (F : Full) (e : Nat) : Nat := (F.served.filter (fun x => decide (x.1 = e))).length

/-- As `EStart`, with a minimum stake of a collator of at least one unit. -/
def EStartPos (E : EPar) (F : Full) : Prop :=
  ∃ delay minTotal minCollator free setup, E.par.minPer ≤ minTotal ∧ Op.newEra ∉ setup ∧ 1 ≤ minCollator ∧
    Op.setMinCollator 0 ∉ setup ∧ genesis E (run E.par (St.init delay minTotal minCollator free) setup) = some F

/-- A state reached while the minimum stake of a collator was never zero. -/
def EReachPos (E : EPar) (F : Full) : Prop :=
  ∃ F0 ops, EStartPos E F0 ∧ EOp.ledger (.setMinCollator 0) ∉ ops ∧ F = eRun E F0 ops

/-- An account authored a block in an era of a history. -/
def Authored (E : EPar) (F0 : Full) (ops : List EOp) (e c : Nat) : Prop :=
  ∃ pre pub now pick post, ops = pre ++ .block pub now c pick :: post ∧ (eRun E F0 pre).led.era = e

/-- The number of blocks in a history. -/
def blockCount (ops : List EOp) : Nat := (blockNumbers ops).length

/-- What the accounts in a list of shares get, by account. -/
def gets (l : List (Nat × Nat)) (a : Nat) : Nat := ((l.filter (fun x => decide (x.1 = a))).map Prod.snd).sum

/-! ### Helpers -/

theorem EStart.all {E : EPar} (hE : E.Sane) {F : Full} (h : EStart E F) : All E F := by
  obtain ⟨d, mt, mc, fr, setup, hm, hn, hg⟩ := h
  exact (genesis_all (run_inv hE.par.ok hE.par.per.1 (init_inv hm) setup) (run_era E.par hE.par.ok hE.par.per.1 (init_inv hm) setup hn) hg).1

theorem EReach.all {E : EPar} (hE : E.Sane) {F : Full} (h : EReach E F) : All E F := by
  obtain ⟨F0, ops, h0, rfl⟩ := h
  exact (eRun_all hE.par.ok hE.par.per.1 hE.delay hE.blocks (h0.all hE) ops).1

theorem EReachPos.reach {E : EPar} {F : Full} (h : EReachPos E F) : EReach E F := by
  obtain ⟨F0, ops, ⟨d, mt, mc, fr, setup, hm, hn, _, _, hg⟩, _, rfl⟩ := h
  exact ⟨F0, ops, ⟨d, mt, mc, fr, setup, hm, hn, hg⟩, rfl⟩

theorem EReachPos.sums {E : EPar} (hE : E.Sane) {F : Full} (h : EReachPos E F) : Sums F := by
  obtain ⟨F0, ops, ⟨d, mt, mc, fr, setup, hm, hn, h1, h2, hg⟩, h3, rfl⟩ := h
  have hi := run_inv hE.par.ok hE.par.per.1 (init_inv (delay := d) (mc := mc) (free := fr) hm) setup
  have ga := genesis_all hi (run_era E.par hE.par.ok hE.par.per.1 (init_inv hm) setup hn) hg
  obtain ⟨b1, b2⟩ := run_bonds hE.par.ok hE.par.per.1 (init_inv (delay := d) (mc := mc) (free := fr) hm) setup
    (by intro c r hr; cases hr) h1 h2
  exact (eRun_all hE.par.ok hE.par.per.1 hE.delay hE.blocks ga.1 ops).2 h3 (ga.2 b1 b2)

/-! ### C48 -/

/-- C48 (partial): what is paid for an era exceeds the amount set aside for it by at most half a unit for each payment and each
collator. Missing: the bound without that; it is false, see below. -/
theorem C48_era_payouts_are_bounded_partial (E : EPar) (hE : E.Sane) (F : Full) (hF : EReachPos E F) (e : Nat) :
    2 * paidFor F e ≤ 2 * F.aside e + paymentsFor F e + collatorsFor F e := (hF.sums hE).all e

/-- C48 (partial): a completed payout of a growth period gives every collator of the period its share by points (the selected
collators equal shares if the period is unknown); the shares exceed the amount by at most half a unit
each, and what is left goes to the treasury, if that account exists. Missing: the bound without the excess. -/
theorem C48_growth_payouts_are_bounded_partial (E : EPar) (hE : E.Sane) (F F' : Full) (hF : EReach E F) (amount period : Nat)
    (h : payoutGrowth E F amount period = (F', true)) :
    let shares := growthShares F amount period
    2 * (shares.map Prod.snd).sum ≤ 2 * amount + shares.length ∧
      (∀ a, a ≠ E.treasury → F'.led.free a = F.led.free a + gets shares a) ∧
      F'.led.free E.treasury = F.led.free E.treasury + gets shares E.treasury +
        (if F.led.free E.treasury + gets shares E.treasury = 0 then 0 else amount - (shares.map Prod.snd).sum) := by
  refine ⟨growthShares_bound (hF.all hE).grow amount period, ?_⟩
  unfold payoutGrowth at h
  by_cases h1 : F.processed period = true
  · rw [if_pos h1] at h; injection h with _ h; cases h
  rw [if_neg h1] at h
  dsimp only at h
  by_cases h2 : (mintAll (growthShares F amount period) F).2.2 = false
  · rw [if_pos h2] at h; injection h with _ h; cases h
  rw [if_neg h2] at h
  injection h with h _
  obtain ⟨k1, k2⟩ := mintAll_done _ _ (by simpa using h2)
  generalize mintAll (growthShares F amount period) F = r at h k1 k2
  subst h
  unfold dustTo
  have e0 : ∀ a, r.1.led.free a = F.led.free a + gets (growthShares F amount period) a := k2
  have e1 : r.2.1 = ((growthShares F amount period).map Prod.snd).sum := k1
  rw [e1]
  by_cases h3 : amount - ((growthShares F amount period).map Prod.snd).sum = 0 ∨ r.1.led.free E.treasury = 0
  · rw [if_pos h3]
    refine ⟨fun a _ => e0 a, ?_⟩
    show r.1.led.free E.treasury = _
    rw [e0]
    rw [e0] at h3
    rcases h3 with h3 | h3
    · rw [h3]; by_cases h4 : F.led.free E.treasury + gets (growthShares F amount period) E.treasury = 0
      · rw [if_pos h4]; rfl
      · rw [if_neg h4]; rfl
    · rw [if_pos h3]; rfl
  · rw [if_neg h3]
    constructor
    · intro a ha
      show upd r.1.led.free E.treasury _ a = _
      rw [upd_ne _ _ ha]
      exact e0 a
    · show upd r.1.led.free E.treasury _ E.treasury = _
      rw [upd_same]
      show r.1.led.free E.treasury + _ = _
      rw [e0]
      rw [if_neg (fun h => h3 (Or.inr (by rw [e0]; exact h)))]

/-! ### C50 -/

/-- C50: no growth period is sent to Ethereum twice. -/
theorem C50_sent_at_most_once (E : EPar) (hE : E.Sane) (F : Full) (hF : EReach E F) : (F.sent.map Sent.period).Nodup :=
  (hF.all hE).grow.once

/-- C50: only periods that no longer accumulate are sent, and until they are paid out the stored figures are those sent. -/
theorem C50_only_complete_periods_are_sent (E : EPar) (hE : E.Sane) (F : Full) (hF : EReach E F) (x : Sent) (hx : x ∈ F.sent) :
    x.period < F.gpIndex ∧ (F.processed x.period = false →
      ∃ g, F.growth x.period = some g ∧ g.reward = x.reward ∧ g.stake / g.accs = x.average) := by
  have h := (hF.all hE).grow
  refine ⟨h.index x hx, fun hp => ?_⟩
  rcases h.sent x hx with k | ⟨g, k1, _, k2⟩
  · rw [hp] at k; cases k
  · exact ⟨g, k1, k2⟩

/-- C50 (partial): no growth period is paid out completely twice, and a period that is marked as paid is refused without an effect.
Missing: a payout that fails on the way keeps the payments already made and can be repeated, see below. -/
theorem C50_completed_at_most_once_partial (E : EPar) (hE : E.Sane) (F : Full) (hF : EReach E F) :
    (F.payouts.map Prod.fst).Nodup ∧
    ∀ p ∈ F.payouts, ∀ amount, payoutGrowth E F amount p.1 = (F, false) := by
  have h := (hF.all hE).grow
  refine ⟨h.paidOnce, fun p hp amount => ?_⟩
  unfold payoutGrowth
  rw [if_pos (h.paid p hp)]

/-- C50: a payout is logged exactly when it is completed. -/
theorem C50_completed_payouts_are_logged (E : EPar) (F : Full) (amount period : Nat) :
    (payoutGrowth E F amount period).1.payouts =
      F.payouts ++ (if (payoutGrowth E F amount period).2 = true then [(period, amount)] else []) := by
  have hg := (payoutGrowth_ok E F amount period).1
  generalize payoutGrowth E F amount period = r at hg ⊢
  obtain ⟨G, b⟩ := r
  dsimp only at hg ⊢
  cases hg with
  | refused _ e => rw [e]; simp
  | failed _ f e => rw [e]; show F.payouts = _; simp
  | done _ f e => rw [e]; show F.payouts ++ [(period, amount)] = _; simp

/-! ### C76 -/

/-- C76: nobody is paid twice for the same collator and era. -/
theorem C76_nobody_is_paid_twice (E : EPar) (hE : E.Sane) (F : Full) (hF : EReach E F) :
    (F.paid.map (fun p => (p.era, p.collator, p.payee))).Nodup := (hF.all hE).pay.payees

/-- C76: no collator has its turn twice for the same era, and payments are made in a turn only. -/
theorem C76_collators_have_one_turn (E : EPar) (hE : E.Sane) (F : Full) (hF : EReach E F) :
    F.served.Nodup ∧ ∀ p ∈ F.paid, (p.era, p.collator) ∈ F.served := ⟨(hF.all hE).pay.once, (hF.all hE).pay.logged⟩

/-- C76: nothing is paid for an era before `payDelay` eras have passed. -/
theorem C76_payments_are_late (E : EPar) (hE : E.Sane) (F : Full) (hF : EReach E F) (p : Payment) (hp : p ∈ F.paid) :
    p.era + E.payDelay ≤ F.led.era := (hF.all hE).pay.late _ ((hF.all hE).pay.logged p hp)

/-- Who may be paid, and who was: nobody but the author of a block is added. -/
theorem block_keys {E : EPar} {F F' : Full} {pub : Nat → Option Nat} {now author pick : Nat} (h : All E F)
    (ho : blockHooks E pub F now author pick = some F') :
    (∀ e, ∀ c ∈ (F'.awarded e).map Prod.fst, c ∈ (F.awarded e).map Prod.fst ∨ (e = F.led.era ∧ c = author)) ∧
    (∀ x ∈ F'.served, x ∈ F.served ∨ x.2 ∈ (F.awarded x.1).map Prod.fst ∨ (x.1 = F.led.era ∧ x.2 = author)) := by
  have hnote : ∀ e, ∀ c ∈ ((noteAuthor F author).awarded e).map Prod.fst, c ∈ (F.awarded e).map Prod.fst ∨ (e = F.led.era ∧ c = author) := by
    intro e c hc
    have hc : c ∈ (upd F.awarded F.led.era (alPut (F.awarded F.led.era) author _) e).map Prod.fst := hc
    by_cases he : e = F.led.era
    · subst he
      rw [upd_same, alPut_key_mem] at hc
      rcases hc with hc | hc
      · exact Or.inr ⟨rfl, hc⟩
      · exact Or.inl hc
    · rw [upd_ne _ _ he] at hc; exact Or.inl hc
  have hpay : ∀ (G G' : Full) (n : Nat), HandleSpec E G G' n → (∀ e, ∀ c ∈ (G'.awarded e).map Prod.fst, c ∈ (G.awarded e).map Prod.fst) ∧
      (∀ x ∈ G'.served, x ∈ G.served ∨ x.2 ∈ (G.awarded x.1).map Prod.fst) := by
    intro G G' n hs
    cases hs with
    | idle k => subst k; exact ⟨fun _ _ hc => hc, fun _ hx => Or.inl hx⟩
    | ended _ _ _ _ k => subst k; exact ⟨fun _ _ hc => hc, fun _ hx => Or.inl hx⟩
    | paid _ total _ k =>
      cases k with
      | paid c pts mem nz k =>
        obtain ⟨f, l, pd, hq⟩ := payRewards_eq E (n - E.payDelay) c
          (rewardsOf c (perbillMul (ratio pts (G.points (n - E.payDelay))) total) (alGet (G.atStake (n - E.payDelay)) c Snap.zero))
          (turn G (n - E.payDelay) c)
        have k : G' = _ := k.trans hq
        subst k
        constructor
        · intro e d hd
          have hd : d ∈ (upd G.awarded (n - E.payDelay) (alDel (G.awarded (n - E.payDelay)) c) e).map Prod.fst := hd
          by_cases he : e = n - E.payDelay
          · rw [he, upd_same] at hd
            rw [he]
            exact (alDel_key.1 hd).1
          · rw [upd_ne _ _ he] at hd; exact hd
        · intro x hx
          have hx : x ∈ G.served ++ [(n - E.payDelay, c)] := hx
          rcases List.mem_append.1 hx with hx | hx
          · exact Or.inl hx
          · rw [List.mem_singleton.1 hx]; exact Or.inr (List.mem_map.2 ⟨_, mem, rfl⟩)
  cases blockHooks_spec h.core ho with
  | same _ _ pay =>
    by_cases he : E.par.enabled = true
    · rw [if_pos he] at pay
      obtain ⟨p1, p2⟩ := hpay _ _ _ pay
      refine ⟨fun e c hc => hnote e c (p1 e c hc), fun x hx => ?_⟩
      rcases p2 x hx with hx | hx
      · exact Or.inl hx
      · exact Or.inr (hnote _ _ hx)
    · rw [if_neg he] at pay
      subst pay
      exact ⟨hnote, fun x hx => Or.inl hx⟩
  | next why F1 start pay =>
    have k : F1.awarded = (noteAuthor F author).awarded ∧ F1.served = F.served := by
      obtain ⟨G1, G2, h1, h2, h3⟩ := start.ex
      have e0 : ∀ G : Full, G = (if shouldUpdate F now then noteAuthor F author else { noteAuthor F author with force := false }) →
          G.awarded = (noteAuthor F author).awarded ∧ G.served = F.served := by
        intro G hG
        by_cases hw : shouldUpdate F now = true
        · rw [if_pos hw] at hG; subst hG; exact ⟨rfl, rfl⟩
        · rw [if_neg hw] at hG; subst hG; exact ⟨rfl, rfl⟩
      generalize (if shouldUpdate F now then noteAuthor F author else { noteAuthor F author with force := false }) = G at *
      obtain ⟨e1, e2⟩ := e0 G rfl
      have hf : PrepFrame G G1 := by rw [h1]; exact prepIf_frame ..
      have hg := h2.frame
      subst h3
      exact ⟨hg.awarded.trans (hf.awarded.trans e1), hg.served.trans (hf.served.trans e2)⟩
    by_cases he : E.par.enabled = true
    · rw [if_pos he] at pay
      obtain ⟨p1, p2⟩ := hpay _ _ _ pay
      rw [k.1, k.2] at *
      refine ⟨fun e c hc => hnote e c (p1 e c hc), fun x hx => ?_⟩
      rcases p2 x hx with hx | hx
      · exact Or.inl hx
      · exact Or.inr (hnote _ _ hx)
    · rw [if_neg he] at pay
      subst pay
      rw [k.1, k.2]
      exact ⟨hnote, fun x hx => Or.inl hx⟩

/-- Steps other than blocks leave the awards and the turns alone. -/
theorem other_keys {E : EPar} {F F' : Full} {op : EOp} (ho : eCall E F op = some F') (hb : ∀ pub now a p, op ≠ .block pub now a p) :
    F'.awarded = F.awarded ∧ F'.served = F.served ∧ F'.paid = F.paid ∧ F'.delayed = F.delayed ∧ F'.points = F.points ∧ F'.aside = F.aside ∧
    F'.atStake = F.atStake := by
  cases op with
  | block pub now author pick => exact absurd rfl (hb pub now author pick)
  | ledger op =>
    have ho : (if op.allowed E F.led then (call E.par F.led op).map (fun s => { F with led := s }) else none) = some F' := ho
    by_cases ha : op.allowed E F.led = true
    · rw [if_pos ha] at ho
      cases hc : call E.par F.led op with
      | none => rw [hc] at ho; cases ho
      | some s =>
        rw [hc] at ho
        have ho : some { F with led := s } = some F' := ho
        injection ho with ho
        subst ho
        exact ⟨rfl, rfl, rfl, rfl, rfl, rfl, rfl⟩
    · rw [if_neg ha] at ho; cases ho
  | setTotalSelected v =>
    have ho : setTotalSelected E F v = some F' := ho
    unfold setTotalSelected at ho
    by_cases hc : E.minSelected ≤ v ∧ F.totalSelected ≠ v ∧ v ≤ F.length
    · rw [if_pos hc] at ho; injection ho with ho; subst ho; exact ⟨rfl, rfl, rfl, rfl, rfl, rfl, rfl⟩
    · rw [if_neg hc] at ho; cases ho
  | setBlocksPerEra v =>
    have ho : setBlocksPerEra E F v = some F' := ho
    unfold setBlocksPerEra at ho
    by_cases hc : E.minBlocks ≤ v ∧ F.length ≠ v ∧ F.totalSelected ≤ v
    · rw [if_pos hc] at ho; injection ho with ho; subst ho; exact ⟨rfl, rfl, rfl, rfl, rfl, rfl, rfl⟩
    · rw [if_neg hc] at ho; cases ho
  | forceEra =>
    have ho : some { F with force := true } = some F' := ho
    injection ho with ho; subst ho; exact ⟨rfl, rfl, rfl, rfl, rfl, rfl, rfl⟩
  | bridgeResult tx ok =>
    have ho : some (bridgeResult F tx ok) = some F' := ho
    injection ho with ho
    subst ho
    unfold bridgeResult
    cases F.published tx with
    | none => exact ⟨rfl, rfl, rfl, rfl, rfl, rfl, rfl⟩
    | some p => exact ⟨rfl, rfl, rfl, rfl, rfl, rfl, rfl⟩
  | growthLifted amount period =>
    have ho : some (payoutGrowth E F amount period).1 = some F' := ho
    injection ho with ho
    subst ho
    have hg := (payoutGrowth_ok E F amount period).1
    generalize payoutGrowth E F amount period = r at hg ⊢
    obtain ⟨G, b⟩ := r
    dsimp only at hg ⊢
    cases hg with
    | refused _ e => rw [e]; exact ⟨rfl, rfl, rfl, rfl, rfl, rfl, rfl⟩
    | failed _ f e => rw [e]; exact ⟨rfl, rfl, rfl, rfl, rfl, rfl, rfl⟩
    | done _ f e => rw [e]; exact ⟨rfl, rfl, rfl, rfl, rfl, rfl, rfl⟩

theorem step_cases (op : EOp) : (∃ pub now a p, op = .block pub now a p) ∨ ∀ pub now a p, op ≠ .block pub now a p := by
  cases op with
  | block pub now a p => exact Or.inl ⟨pub, now, a, p, rfl⟩
  | _ => exact Or.inr (by intro _ _ _ _ h; cases h)

theorem Authored.more {E : EPar} {F0 : Full} {ops : List EOp} {e c : Nat} (h : Authored E F0 ops e c) (op : EOp) :
    Authored E F0 (ops ++ [op]) e c := by
  obtain ⟨pre, pub, now, pick, post, h1, h2⟩ := h
  exact ⟨pre, pub, now, pick, post ++ [op], by rw [h1]; simp, h2⟩

theorem authored_all {E : EPar} (hE : E.Sane) {F0 : Full} (h0 : EStart E F0) (ops : List EOp) :
    (∀ e, ∀ c ∈ ((eRun E F0 ops).awarded e).map Prod.fst, Authored E F0 ops e c) ∧
    (∀ x ∈ (eRun E F0 ops).served, Authored E F0 ops x.1 x.2) := by
  induction ops using List.reverseRecOn with
  | nil =>
    obtain ⟨d, mt, mc, fr, setup, hm, hn, hg⟩ := h0
    have hi := run_inv hE.par.ok hE.par.per.1 (init_inv (delay := d) (mc := mc) (free := fr) hm) setup
    obtain ⟨G, h1, h2⟩ := selectTop_ok (E := E) (F := blank E (run E.par (St.init d mt mc fr) setup)) hi 1 (by intro c hc; cases hc)
    have : genesis E (run E.par (St.init d mt mc fr) setup) = some G := h1
    rw [this] at hg
    injection hg with hg
    subst hg
    have hf := h2.frame
    constructor
    · intro e c hc
      have hc : c ∈ (G.awarded e).map Prod.fst := hc
      rw [hf.awarded] at hc
      cases hc
    · intro x hx
      have hx : x ∈ G.served := hx
      rw [hf.served] at hx
      cases hx
  | append_singleton ops op ih =>
    obtain ⟨i1, i2⟩ := ih
    have hr : EReach E (eRun E F0 ops) := ⟨F0, ops, h0, rfl⟩
    have hall := hr.all hE
    rw [eRun_snoc]
    unfold eStep
    cases ho : eCall E (eRun E F0 ops) op with
    | none => exact ⟨fun e c hc => (i1 e c hc).more op, fun x hx => (i2 x hx).more op⟩
    | some F' =>
      show (∀ e, ∀ c ∈ (F'.awarded e).map Prod.fst, _) ∧ (∀ x ∈ F'.served, _)
      rcases step_cases op with ⟨pub, now, a, p, rfl⟩ | hb
      · obtain ⟨k1, k2⟩ := block_keys hall ho
        have hnew : ∀ e c, e = (eRun E F0 ops).led.era ∧ c = a → Authored E F0 (ops ++ [.block pub now a p]) e c := by
          rintro e c ⟨rfl, rfl⟩
          exact ⟨ops, pub, now, p, [], rfl, rfl⟩
        constructor
        · intro e c hc
          rcases k1 e c hc with h | h
          · exact (i1 e c h).more _
          · exact hnew e c h
        · intro x hx
          rcases k2 x hx with h | h | h
          · exact (i2 x h).more _
          · exact (i1 _ _ h).more _
          · exact hnew _ _ h
      · obtain ⟨k1, k2, _⟩ := other_keys ho hb
        rw [k1, k2]
        exact ⟨fun e c hc => (i1 e c hc).more op, fun x hx => (i2 x hx).more op⟩

/-- C76: payments for an era are made only on behalf of collators that authored a block in that era. -/
theorem C76_only_authors_are_rewarded (E : EPar) (hE : E.Sane) (F0 : Full) (h0 : EStart E F0) (ops : List EOp) (p : Payment)
    (hp : p ∈ (eRun E F0 ops).paid) : Authored E F0 ops p.era p.collator := by
  have hr : EReach E (eRun E F0 ops) := ⟨F0, ops, h0, rfl⟩
  have hall := hr.all hE
  exact (authored_all hE h0 ops).2 _ (hall.pay.logged p hp)

/-- The payments of a turn move the funds out of the pot; a payment to the pot itself moves nothing. -/
theorem turn_moves (E : EPar) (e c : Nat) (l : List (Nat × Nat)) (F : Full) :
    ∃ m : List (Nat × Nat), m.Sublist l ∧ (l.foldl (payReward E e c) F).paid = F.paid ++ m.map (fun x => ⟨e, c, x.1, x.2⟩) ∧
      (∀ a, a ≠ E.pot → (l.foldl (payReward E e c) F).led.free a = F.led.free a + gets m a) ∧
      (l.foldl (payReward E e c) F).led.free E.pot + (m.map Prod.snd).sum = F.led.free E.pot + gets m E.pot ∧
      ((∀ x ∈ l, E.ed ≤ F.led.free x.1 + x.2) → (l.map Prod.snd).sum + E.ed ≤ F.led.free E.pot → m = l) := by
  induction l generalizing F with
  | nil => exact ⟨[], List.Sublist.refl _, by simp, fun _ _ => rfl, rfl, fun _ _ => rfl⟩
  | cons x l ih =>
    obtain ⟨m, h1, h2, h3, h4, h5⟩ := ih (payReward E e c F x)
    rw [List.foldl_cons]
    have gc : ∀ a, gets (x :: m) a = (if x.1 = a then x.2 else 0) + gets m a := by
      intro a
      unfold gets
      rw [List.filter_cons]
      by_cases ha : x.1 = a
      · rw [if_pos (decide_eq_true ha), if_pos ha, List.map_cons, List.sum_cons]
      · rw [if_neg (by simpa using ha), if_neg ha, Nat.zero_add]
    by_cases k1 : x.2 = 0 ∨ x.1 = E.pot
    · have hp : payReward E e c F x = { F with locked := F.locked - x.2, paid := F.paid ++ [⟨e, c, x.1, x.2⟩] } := by
        unfold payReward; rw [if_pos k1]
      have hf : (payReward E e c F x).led = F.led := by rw [hp]
      have hpd : (payReward E e c F x).paid = F.paid ++ [⟨e, c, x.1, x.2⟩] := by rw [hp]
      rw [hf] at h3 h4 h5
      refine ⟨x :: m, h1.cons_cons x, ?_, ?_, ?_, ?_⟩
      · rw [h2, hpd, List.map_cons, List.append_assoc]; rfl
      · intro a ha
        rw [h3 a ha, gc a]
        by_cases hx : x.1 = a
        · rw [if_pos hx]
          rcases k1 with k | k
          · rw [k]; omega
          · exact absurd (hx.symm.trans k) ha
        · rw [if_neg hx]; omega
      · rw [List.map_cons, List.sum_cons, gc]
        rcases k1 with k | k
        · rw [k]
          by_cases hx : x.1 = E.pot
          · rw [if_pos hx]; omega
          · rw [if_neg hx]; omega
        · rw [if_pos k]; omega
      · intro hed hsum
        rw [List.map_cons, List.sum_cons] at hsum
        rw [h5 (fun y hy => hed y (List.mem_cons_of_mem _ hy)) (by omega)]
    · by_cases k2 : F.led.free E.pot < x.2 + E.ed ∨ F.led.free x.1 + x.2 < E.ed
      · have hp : payReward E e c F x = F := by unfold payReward; rw [if_neg k1, if_pos k2]
        rw [hp] at h2 h3 h4 h5 ⊢
        refine ⟨m, h1.cons x, h2, h3, h4, ?_⟩
        intro hed hsum
        rw [List.map_cons, List.sum_cons] at hsum
        rcases k2 with k | k
        · omega
        · have := hed x (List.mem_cons_self ..); omega
      · have hp : payReward E e c F x =
            { F with led := { F.led with free := upd (upd F.led.free E.pot (F.led.free E.pot - x.2)) x.1 (F.led.free x.1 + x.2) },
                     locked := F.locked - x.2, paid := F.paid ++ [⟨e, c, x.1, x.2⟩] } := by
          unfold payReward; rw [if_neg k1, if_neg k2]
        have hf : (payReward E e c F x).led.free = upd (upd F.led.free E.pot (F.led.free E.pot - x.2)) x.1 (F.led.free x.1 + x.2) := by
          rw [hp]
        have hpd : (payReward E e c F x).paid = F.paid ++ [⟨e, c, x.1, x.2⟩] := by rw [hp]
        have hne : E.pot ≠ x.1 := fun h => k1 (Or.inr h.symm)
        rw [hf] at h3 h4 h5
        refine ⟨x :: m, h1.cons_cons x, ?_, ?_, ?_, ?_⟩
        · rw [h2, hpd, List.map_cons, List.append_assoc]; rfl
        · intro a ha
          rw [h3 a ha, gc a]
          by_cases hx : x.1 = a
          · subst hx; rw [upd_same, if_pos rfl]; omega
          · rw [if_neg hx, upd_ne _ _ (fun h => hx h.symm), upd_ne _ _ ha]; omega
        · rw [List.map_cons, List.sum_cons, gc, if_neg (fun h => hne h.symm)]
          rw [upd_ne _ _ hne, upd_same] at h4
          omega
        · intro hed hsum
          rw [List.map_cons, List.sum_cons] at hsum
          rw [h5 ?_ ?_]
          · intro y hy
            have h1 := hed y (List.mem_cons_of_mem _ hy)
            by_cases hx : y.1 = x.1
            · rw [hx, upd_same]; rw [hx] at h1; omega
            · rw [upd_ne _ _ hx]
              by_cases hq : y.1 = E.pot
              · rw [hq, upd_same]; omega
              · rw [upd_ne _ _ hq]; exact h1
          · rw [upd_ne _ _ hne, upd_same]; omega

/-- What a block may pay: nothing, or one turn. `e` is the era paid for, `c` the collator, `pts` its points of all `all`, `total` the
amount set aside and `sn` the snapshot of its stake; `m` are the payments made. The reward of a collator is its share by points of the
amount set aside; it is divided by stake among the collator and the nominators. (The author of the block gets its points first.) -/
inductive Paid (E : EPar) (F F' : Full) (author : Nat) : Prop where
  | nothing (log : F'.paid = F.paid) (free : F'.led.free = F.led.free)
  | turn (e c pts all total : Nat) (sn : Snap) (m : List (Nat × Nat))
      (era : F'.led.era = e + E.payDelay)
      (awarded : (c, pts) ∈ (noteAuthor F author).awarded e) (points : all = (noteAuthor F author).points e)
      (aside : total = F'.aside e)
      (stake : (c, sn) ∈ F.atStake e ∨ (c ∉ (F.atStake e).map Prod.fst ∧ sn = ⟨0, [], 0⟩))
      (due : m.Sublist (rewardsOf c (perbillMul (ratio pts all) total) sn))
      (complete : (∀ x ∈ rewardsOf c (perbillMul (ratio pts all) total) sn, E.ed ≤ F.led.free x.1 + x.2) →
        ((rewardsOf c (perbillMul (ratio pts all) total) sn).map Prod.snd).sum + E.ed ≤ F.led.free E.pot →
        m = rewardsOf c (perbillMul (ratio pts all) total) sn)
      (log : F'.paid = F.paid ++ m.map (fun x => ⟨e, c, x.1, x.2⟩))
      (payees : ∀ a, a ≠ E.pot → F'.led.free a = F.led.free a + gets m a)
      (pot : F'.led.free E.pot + (m.map Prod.snd).sum = F.led.free E.pot + gets m E.pot)

theorem alGet_cases {l : List (Nat × Snap)} {c : Nat} :
    (c, alGet l c Snap.zero) ∈ l ∨ (c ∉ l.map Prod.fst ∧ alGet l c Snap.zero = Snap.zero) := by
  unfold alGet
  cases h : l.find? (fun p => decide (p.1 = c)) with
  | some x =>
    have h1 := List.mem_of_find?_eq_some h
    have h2 := List.find?_some h
    have h2 : x.1 = c := of_decide_eq_true h2
    refine Or.inl ?_
    show (c, x.2) ∈ l
    rw [← h2]; exact h1
  | none =>
    refine Or.inr ⟨?_, rfl⟩
    intro hc
    obtain ⟨x, hx, hxc⟩ := List.mem_map.1 hc
    have := List.find?_eq_none.1 h x hx
    exact this (decide_eq_true hxc)

theorem HandleSpec.turns {E : EPar} {F F' : Full} {e : Nat} (he : e = F.led.era) (hs : HandleSpec E F F' e) (p : Pay E F) :
    (F'.paid = F.paid ∧ F'.led.free = F.led.free) ∨
    ∃ d c pts total sn m, F'.led.era = d + E.payDelay ∧ (c, pts) ∈ F.awarded d ∧ total = F'.aside d ∧
      ((c, sn) ∈ F.atStake d ∨ (c ∉ (F.atStake d).map Prod.fst ∧ sn = Snap.zero)) ∧
      m.Sublist (rewardsOf c (perbillMul (ratio pts (F.points d)) total) sn) ∧
      ((∀ x ∈ rewardsOf c (perbillMul (ratio pts (F.points d)) total) sn, E.ed ≤ F.led.free x.1 + x.2) →
        ((rewardsOf c (perbillMul (ratio pts (F.points d)) total) sn).map Prod.snd).sum + E.ed ≤ F.led.free E.pot →
        m = rewardsOf c (perbillMul (ratio pts (F.points d)) total) sn) ∧
      F'.paid = F.paid ++ m.map (fun x => ⟨d, c, x.1, x.2⟩) ∧
      (∀ a, a ≠ E.pot → F'.led.free a = F.led.free a + gets m a) ∧
      F'.led.free E.pot + (m.map Prod.snd).sum = F.led.free E.pot + gets m E.pot := by
  have hf := hs.frame
  cases hs with
  | idle h => subst h; exact Or.inl ⟨rfl, rfl⟩
  | ended _ _ _ _ h => subst h; exact Or.inl ⟨rfl, rfl⟩
  | paid late total due h =>
    refine Or.inr ?_
    cases h with
    | paid c pts mem nz now =>
      have hq : F' = (rewardsOf c (perbillMul (ratio pts (F.points (e - E.payDelay))) total)
        (alGet (F.atStake (e - E.payDelay)) c Snap.zero)).foldl (payReward E (e - E.payDelay) c) (turn F (e - E.payDelay) c) := now
      obtain ⟨m, h1, h2, h3, h4, h5⟩ := turn_moves E (e - E.payDelay) c (rewardsOf c (perbillMul (ratio pts (F.points (e - E.payDelay))) total)
        (alGet (F.atStake (e - E.payDelay)) c Snap.zero)) (turn F (e - E.payDelay) c)
      rw [← hq] at h2 h3 h4
      refine ⟨e - E.payDelay, c, pts, total, alGet (F.atStake (e - E.payDelay)) c Snap.zero, m, ?_, mem, ?_, alGet_cases, h1, h5, h2, h3, h4⟩
      · rw [hf.era]; omega
      · rw [hf.aside]; exact (p.live _ _ due).2

/-- C76: what a block pays, to whom, and out of which account. -/
theorem C76_amounts_of_a_turn (E : EPar) (hE : E.Sane) (F F' : Full) (hF : EReach E F) (pub : Nat → Option Nat) (now author pick : Nat)
    (ho : blockHooks E pub F now author pick = some F') : Paid E F F' author := by
  have hall := hF.all hE
  cases blockHooks_spec hall.core ho with
  | same _ _ pay =>
    by_cases he : E.par.enabled = true
    · rw [if_pos he] at pay
      rcases pay.turns rfl (hall.note hE.delay author).pay with ⟨h1, h2⟩ | ⟨d, c, pts, total, sn, m, h1, h2, h3, h4, h5, h6, h7, h8, h9⟩
      · exact .nothing h1 h2
      · exact .turn d c pts _ total sn m h1 h2 rfl h3 h4 h5 h6 h7 h8 h9
    · rw [if_neg he] at pay
      subst pay
      exact .nothing rfl rfl
  | next why F1 start pay =>
    have hall1 := start.all' (hall.start hE.delay author now)
    have k : F1.awarded = (noteAuthor F author).awarded ∧ F1.points = (noteAuthor F author).points ∧ F1.paid = F.paid ∧
        F1.led.free = F.led.free ∧ F1.led.era = F.led.era + 1 ∧ ∀ d, d ≠ F.led.era + 1 → F1.atStake d = F.atStake d := by
      obtain ⟨G1, G2, h1, h2, h3⟩ := start.ex
      have e0 : ∀ G : Full, G = (if shouldUpdate F now then noteAuthor F author else { noteAuthor F author with force := false }) →
          G.awarded = (noteAuthor F author).awarded ∧ G.points = (noteAuthor F author).points ∧ G.paid = F.paid ∧ G.led = F.led ∧ G.atStake = F.atStake := by
        intro G hG
        by_cases hw : shouldUpdate F now = true
        · rw [if_pos hw] at hG; subst hG; exact ⟨rfl, rfl, rfl, rfl, rfl⟩
        · rw [if_neg hw] at hG; subst hG; exact ⟨rfl, rfl, rfl, rfl, rfl⟩
      generalize (if shouldUpdate F now then noteAuthor F author else { noteAuthor F author with force := false }) = G at *
      obtain ⟨e1, e2, e3, e4, e5⟩ := e0 G rfl
      have hf : PrepFrame G G1 := by rw [h1]; exact prepIf_frame ..
      have hg := h2.frame
      subst h3
      refine ⟨hg.awarded.trans (hf.awarded.trans e1), hg.points.trans (hf.points.trans e2), hg.paid.trans (hf.paid.trans e3), ?_, ?_, ?_⟩
      · show G2.led.free = _; rw [hg.led, hf.led, e4]
      · show G.led.era + 1 = _; rw [e4]
      · intro d hd
        show G2.atStake d = _
        rw [hg.atStake d (by rw [e4]; exact hd), hf.atStake, e5]
    obtain ⟨k1, k2, k3, k4, k5, k6⟩ := k
    by_cases he : E.par.enabled = true
    · rw [if_pos he] at pay
      rcases pay.turns k5.symm hall1.pay with ⟨h1, h2⟩ | ⟨d, c, pts, total, sn, m, h1, h2, h3, h4, h5, h6, h7, h8, h9⟩
      · exact .nothing (h1.trans k3) (h2.trans k4)
      · have hera : F'.led.era = F.led.era + 1 := pay.frame.era.trans k5
        have := hE.delay
        rw [k6 d (by omega)] at h4
        rw [k1] at h2
        rw [k2] at h5 h6
        rw [k3] at h7
        rw [k4] at h6 h8 h9
        exact .turn d c pts _ total sn m h1 h2 rfl h3 h4 h5 h6 h7 h8 h9
    · rw [if_neg he] at pay
      subst pay
      exact .nothing k3 k4

/-- C76: a snapshot of an era is taken when that era starts; nothing appears or changes in it afterwards. -/
theorem C76_snapshots_are_final (E : EPar) (hE : E.Sane) (F : Full) (hF : EReach E F) (op : EOp) (e : Nat) (x : Nat × Snap)
    (hx : x ∈ (eStep E F op).atStake e) (he : e ≤ F.led.era) : x ∈ F.atStake e := by
  have hall := hF.all hE
  unfold eStep at hx
  cases ho : eCall E F op with
  | none => rw [ho] at hx; exact hx
  | some F' =>
    rw [ho] at hx
    have hx : x ∈ F'.atStake e := hx
    rcases step_cases op with ⟨pub, now, a, p, rfl⟩ | hb
    · cases blockHooks_spec hall.core ho with
      | same _ _ pay =>
        by_cases hen : E.par.enabled = true
        · rw [if_pos hen] at pay; exact (pay.atStake.2 e).subset hx
        · rw [if_neg hen] at pay; subst pay; exact hx
      | next why F1 start pay =>
        have k : F1.atStake e = F.atStake e := by
          obtain ⟨G1, G2, h1, h2, h3⟩ := start.ex
          have e0 : ∀ G : Full, G = (if shouldUpdate F now then noteAuthor F a else { noteAuthor F a with force := false }) →
              G.led = F.led ∧ G.atStake = F.atStake := by
            intro G hG
            by_cases hw : shouldUpdate F now = true
            · rw [if_pos hw] at hG; subst hG; exact ⟨rfl, rfl⟩
            · rw [if_neg hw] at hG; subst hG; exact ⟨rfl, rfl⟩
          generalize (if shouldUpdate F now then noteAuthor F a else { noteAuthor F a with force := false }) = G at *
          obtain ⟨e4, e5⟩ := e0 G rfl
          have hf : PrepFrame G G1 := by rw [h1]; exact prepIf_frame ..
          have hg := h2.frame
          subst h3
          show G2.atStake e = _
          rw [hg.atStake e (by rw [e4]; omega), hf.atStake, e5]
        rw [← k]
        by_cases hen : E.par.enabled = true
        · rw [if_pos hen] at pay; exact (pay.atStake.2 e).subset hx
        · rw [if_neg hen] at pay; subst pay; exact hx
    · rw [(other_keys ho hb).2.2.2.2.2.2] at hx; exact hx

/-- C76: a snapshot adds up: the own bond and the counted nominations are the total, and nobody occurs in it twice. -/
theorem C76_snapshots_add_up (E : EPar) (hE : E.Sane) (F : Full) (hF : EReach E F) (e c : Nat) (sn : Snap) (h : (c, sn) ∈ F.atStake e) :
    sn.bond + bondSum sn.noms = sn.total ∧ (c :: sn.noms.map Bond.owner).Nodup :=
  ⟨((hF.all hE).pay.snap e _ h).total, ((hF.all hE).pay.snap e _ h).once⟩

/-! ### C77 -/

/-- A block inside the era in which an era is paid serves one more collator, or ends the payout. -/
theorem block_serves {E : EPar} (hE : E.Sane) (hen : E.par.enabled = true) {F : Full} (h : All E F) {pub : Nat → Option Nat}
    {now author pick : Nat} {e total : Nat} (he : F.led.era = e + E.payDelay) (hd : F.delayed e = some total)
    (hs : (eStep E F (.block pub now author pick)).led.era = F.led.era) :
    ((eStep E F (.block pub now author pick)).awarded e).length = (F.awarded e).length - 1 ∧
    (F.awarded e ≠ [] → (eStep E F (.block pub now author pick)).delayed e = some total) ∧
    (F.awarded e = [] → (eStep E F (.block pub now author pick)).delayed e = none ∧ (eStep E F (.block pub now author pick)).points e = 0) := by
  obtain ⟨F', ho, hb⟩ := blockHooks_ok (pub := pub) h.core now author pick
  have e1 : eStep E F (.block pub now author pick) = F' := by
    show (blockHooks E pub F now author pick).getD F = F'
    rw [ho]; rfl
  rw [e1] at hs ⊢
  have hne : e ≠ F.led.era := by have := hE.delay; omega
  have hsch := hb.schedule h.core
  have haw : (noteAuthor F author).awarded e = F.awarded e := upd_ne _ _ hne
  have hpt : (noteAuthor F author).points e = F.points e := upd_ne _ _ hne
  have hnz := (h.pay.live e total hd).1
  have hed : F.led.era - E.payDelay = e := by omega
  cases hb with
  | next why F1 start pay =>
    rcases hsch with ⟨_, _, _, q1, q2⟩ | ⟨q, _⟩
    · rcases why with w | w
      · rw [w] at q1; cases q1
      · rw [w] at q2; cases q2
    · omega
  | same _ _ pay =>
    rw [if_pos hen] at pay
    cases pay with
    | idle k why =>
      rcases why with w | w
      · omega
      · have w : F.delayed (F.led.era - E.payDelay) = none := w
        rw [hed, hd] at w; cases w
    | ended _ t due why k =>
      rw [hed] at why k
      rcases why with w | w
      · rw [hpt] at w; exact absurd w hnz
      · subst k
        rw [haw] at w
        refine ⟨?_, fun hn => absurd w hn, fun _ => ⟨upd_same .., upd_same ..⟩⟩
        show ((noteAuthor F author).awarded e).length = _
        rw [haw, w]; rfl
    | paid _ t due k =>
      cases k with
      | paid c pts mem nz k =>
        rw [hed] at mem k
        obtain ⟨f, l, pd, hq⟩ := payRewards_eq E e c
          (rewardsOf c (perbillMul (ratio pts ((noteAuthor F author).points e)) t) (alGet ((noteAuthor F author).atStake e) c Snap.zero))
          (turn (noteAuthor F author) e c)
        have k : F' = _ := k.trans hq
        subst k
        have hp := (alDel_perm ((h.note hE.delay author).pay.nodup e) mem).length_eq
        rw [haw] at mem
        refine ⟨?_, fun _ => hd, fun hn => ?_⟩
        · show (upd (noteAuthor F author).awarded e (alDel ((noteAuthor F author).awarded e) c) e).length = _
          rw [upd_same]
          rw [List.length_cons] at hp
          rw [haw] at hp ⊢
          omega
        · rw [hn] at mem; cases mem

/-- Other steps do not touch a payout. -/
theorem other_serves {E : EPar} {F : Full} {op : EOp} (hb : ∀ pub now a p, op ≠ .block pub now a p) (e : Nat) :
    (eStep E F op).awarded e = F.awarded e ∧ (eStep E F op).delayed e = F.delayed e ∧ (eStep E F op).points e = F.points e := by
  unfold eStep
  cases ho : eCall E F op with
  | none => exact ⟨rfl, rfl, rfl⟩
  | some F' =>
    obtain ⟨k1, _, _, k4, k5, _⟩ := other_keys ho hb
    show F'.awarded e = _ ∧ F'.delayed e = _ ∧ F'.points e = _
    rw [k1, k4, k5]
    exact ⟨rfl, rfl, rfl⟩

theorem step_era {E : EPar} (hE : E.Sane) {F : Full} (hF : EReach E F) (op : EOp) : F.led.era ≤ (eStep E F op).led.era := by
  by_cases h : (eStep E F op).led.era = F.led.era
  · omega
  · obtain ⟨_, _, _, _, _, h1, _⟩ := C52_eras_advance_by_one_and_when_due E hE F hF op h
    omega

theorem run_era_le {E : EPar} (hE : E.Sane) {F : Full} (hF : EReach E F) (ops : List EOp) : F.led.era ≤ (eRun E F ops).led.era := by
  induction ops generalizing F with
  | nil => exact Nat.le_refl _
  | cons op ops ih => exact Nat.le_trans (step_era hE hF op) (ih (hF.step op))

/-- A finished payout stays finished while the era lasts. -/
theorem block_finished {E : EPar} (hE : E.Sane) {F : Full} (h : All E F) {pub : Nat → Option Nat}
    {now author pick : Nat} {e : Nat} (he : F.led.era = e + E.payDelay) (hd : F.delayed e = none) (ha : F.awarded e = [])
    (hs : (eStep E F (.block pub now author pick)).led.era = F.led.era) :
    (eStep E F (.block pub now author pick)).awarded e = [] ∧ (eStep E F (.block pub now author pick)).delayed e = none := by
  obtain ⟨F', ho, hb⟩ := blockHooks_ok (pub := pub) h.core now author pick
  have e1 : eStep E F (.block pub now author pick) = F' := by
    show (blockHooks E pub F now author pick).getD F = F'
    rw [ho]; rfl
  rw [e1] at hs ⊢
  have hne : e ≠ F.led.era := by have := hE.delay; omega
  have haw : (noteAuthor F author).awarded e = F.awarded e := upd_ne _ _ hne
  have hsch := hb.schedule h.core
  have hed : F.led.era - E.payDelay = e := by omega
  cases hb with
  | next why F1 start pay =>
    rcases hsch with ⟨_, _, _, q1, q2⟩ | ⟨q, _⟩
    · rcases why with w | w
      · rw [w] at q1; cases q1
      · rw [w] at q2; cases q2
    · omega
  | same _ _ pay =>
    by_cases hen : E.par.enabled = true
    · rw [if_pos hen] at pay
      cases pay with
      | idle k => subst k; exact ⟨haw.trans ha, hd⟩
      | ended _ t due => have due : F.delayed (F.led.era - E.payDelay) = some t := due; rw [hed, hd] at due; cases due
      | paid _ t due => have due : F.delayed (F.led.era - E.payDelay) = some t := due; rw [hed, hd] at due; cases due
    · rw [if_neg hen] at pay; subst pay; exact ⟨haw.trans ha, hd⟩

/-- C77: in the era in which an era is paid, every block serves one more collator until nobody is left. -/
theorem C77_one_collator_per_block (E : EPar) (hE : E.Sane) (hen : E.par.enabled = true) (F : Full) (hF : EReach E F) (e : Nat)
    (he : F.led.era = e + E.payDelay) (hd : F.delayed e ≠ none) (ops : List EOp) (hs : (eRun E F ops).led.era = F.led.era) :
    ((eRun E F ops).awarded e).length = (F.awarded e).length - blockCount ops := by
  have key : ∀ (ops : List EOp) (F : Full), EReach E F → F.led.era = e + E.payDelay → (F.delayed e ≠ none ∨ F.awarded e = []) →
      (eRun E F ops).led.era = F.led.era → ((eRun E F ops).awarded e).length = (F.awarded e).length - blockCount ops := by
    intro ops
    induction ops with
    | nil => intro F _ _ _ _; rfl
    | cons op ops ih =>
      intro F hF he hd hs
      have hs : (eRun E (eStep E F op) ops).led.era = F.led.era := hs
      have h1 := step_era hE hF op
      have h2 := run_era_le hE (hF.step op) ops
      have h3 : (eStep E F op).led.era = F.led.era := by omega
      show ((eRun E (eStep E F op) ops).awarded e).length = _
      have hall := hF.all hE
      rcases step_cases op with ⟨pub, now, a, p, rfl⟩ | hb
      · have hc : blockCount (.block pub now a p :: ops) = blockCount ops + 1 := rfl
        cases hdl : F.delayed e with
        | none =>
          rcases hd with hd | hd
          · exact absurd hdl hd
          · obtain ⟨k1, k2⟩ := block_finished hE hall he hdl hd h3
            rw [ih _ (hF.step _) (by omega) (Or.inr k1) (by omega), k1, hd]
            simp
        | some total =>
          obtain ⟨k1, k2, k3⟩ := block_serves hE hen hall he hdl h3
          by_cases hn : F.awarded e = []
          · rw [ih _ (hF.step _) (by omega) (Or.inr (List.eq_nil_of_length_eq_zero (by rw [k1, hn]; rfl))) (by omega), k1, hc]
            omega
          · rw [ih _ (hF.step _) (by omega) (Or.inl (by rw [k2 hn]; exact fun h => by cases h)) (by omega), k1, hc]
            omega
      · obtain ⟨k1, k2, _⟩ := other_serves (E := E) (F := F) hb e
        have hc : blockCount (op :: ops) = blockCount ops := by
          cases op with
          | block pub now a p => exact absurd rfl (hb pub now a p)
          | _ => rfl
        rw [ih _ (hF.step _) (by omega) (by rw [k1, k2]; exact hd) (by omega), k1, hc]
  exact key ops F hF he (Or.inl hd) hs

/-- Nobody loses an award except by having a turn. -/
theorem step_turn {E : EPar} {F : Full} (h : All E F) (op : EOp) (e c : Nat)
    (hc : c ∈ (F.awarded e).map Prod.fst ∨ (e, c) ∈ F.served) :
    c ∈ ((eStep E F op).awarded e).map Prod.fst ∨ (e, c) ∈ (eStep E F op).served := by
  unfold eStep
  cases ho : eCall E F op with
  | none => exact hc
  | some F' =>
    show c ∈ (F'.awarded e).map Prod.fst ∨ (e, c) ∈ F'.served
    rcases step_cases op with ⟨pub, now, a, p, rfl⟩ | hb
    · have hnote : c ∈ ((noteAuthor F a).awarded e).map Prod.fst ∨ (e, c) ∈ (noteAuthor F a).served := by
        rcases hc with hc | hc
        · refine Or.inl ?_
          show c ∈ (upd F.awarded F.led.era _ e).map Prod.fst
          by_cases he : e = F.led.era
          · subst he; rw [upd_same, alPut_key_mem]; exact Or.inr hc
          · rw [upd_ne _ _ he]; exact hc
        · exact Or.inr hc
      have hpay : ∀ (G G' : Full) (n : Nat), HandleSpec E G G' n → (c ∈ (G.awarded e).map Prod.fst ∨ (e, c) ∈ G.served) →
          (c ∈ (G'.awarded e).map Prod.fst ∨ (e, c) ∈ G'.served) := by
        intro G G' n hs hg
        cases hs with
        | idle k => subst k; exact hg
        | ended _ _ _ _ k => subst k; exact hg
        | paid _ total _ k =>
          cases k with
          | paid d pts mem nz k =>
            obtain ⟨f, l, pd, hq⟩ := payRewards_eq E (n - E.payDelay) d
              (rewardsOf d (perbillMul (ratio pts (G.points (n - E.payDelay))) total) (alGet (G.atStake (n - E.payDelay)) d Snap.zero))
              (turn G (n - E.payDelay) d)
            have k : G' = _ := k.trans hq
            subst k
            show c ∈ (upd G.awarded (n - E.payDelay) (alDel (G.awarded (n - E.payDelay)) d) e).map Prod.fst ∨
              (e, c) ∈ G.served ++ [(n - E.payDelay, d)]
            rcases hg with hg | hg
            · by_cases he : e = n - E.payDelay
              · by_cases hcd : c = d
                · rw [he, hcd]; exact Or.inr (List.mem_append_right _ (List.mem_singleton.2 rfl))
                · refine Or.inl ?_
                  rw [he] at hg
                  rw [he, upd_same]
                  exact alDel_key.2 ⟨hg, hcd⟩
              · rw [upd_ne _ _ he]; exact Or.inl hg
            · exact Or.inr (List.mem_append_left _ hg)
      cases blockHooks_spec h.core ho with
      | same _ _ pay =>
        by_cases he : E.par.enabled = true
        · rw [if_pos he] at pay; exact hpay _ _ _ pay hnote
        · rw [if_neg he] at pay; subst pay; exact hnote
      | next why F1 start pay =>
        have k : c ∈ (F1.awarded e).map Prod.fst ∨ (e, c) ∈ F1.served := by
          obtain ⟨G1, G2, h1, h2, h3⟩ := start.ex
          have e0 : ∀ G : Full, G = (if shouldUpdate F now then noteAuthor F a else { noteAuthor F a with force := false }) →
              G.awarded = (noteAuthor F a).awarded ∧ G.served = F.served := by
            intro G hG
            by_cases hw : shouldUpdate F now = true
            · rw [if_pos hw] at hG; subst hG; exact ⟨rfl, rfl⟩
            · rw [if_neg hw] at hG; subst hG; exact ⟨rfl, rfl⟩
          generalize (if shouldUpdate F now then noteAuthor F a else { noteAuthor F a with force := false }) = G at *
          obtain ⟨e1, e2⟩ := e0 G rfl
          have hf : PrepFrame G G1 := by rw [h1]; exact prepIf_frame ..
          have hg := h2.frame
          subst h3
          show c ∈ (G2.awarded e).map Prod.fst ∨ (e, c) ∈ G2.served
          rw [hg.awarded, hf.awarded, e1, hg.served, hf.served, e2]
          exact hnote
        by_cases he : E.par.enabled = true
        · rw [if_pos he] at pay; exact hpay _ _ _ pay k
        · rw [if_neg he] at pay; subst pay; exact k
    · obtain ⟨k1, k2, _⟩ := other_keys ho hb
      rw [k1, k2]; exact hc

/-- C77: if that era has at least as many blocks as there are collators to pay, each of them has its turn. -/
theorem C77_everybody_has_a_turn (E : EPar) (hE : E.Sane) (hen : E.par.enabled = true) (F : Full) (hF : EReach E F) (e : Nat)
    (he : F.led.era = e + E.payDelay) (hd : F.delayed e ≠ none) (ops : List EOp) (hs : (eRun E F ops).led.era = F.led.era)
    (hn : (F.awarded e).length ≤ blockCount ops) (c : Nat) (hc : c ∈ (F.awarded e).map Prod.fst) : (e, c) ∈ (eRun E F ops).served := by
  have h1 := C77_one_collator_per_block E hE hen F hF e he hd ops hs
  have h2 : (eRun E F ops).awarded e = [] := List.eq_nil_of_length_eq_zero (by omega)
  have key : ∀ (ops : List EOp) (F : Full), EReach E F → (c ∈ (F.awarded e).map Prod.fst ∨ (e, c) ∈ F.served) →
      (c ∈ ((eRun E F ops).awarded e).map Prod.fst ∨ (e, c) ∈ (eRun E F ops).served) := by
    intro ops
    induction ops with
    | nil => intro F _ h; exact h
    | cons op ops ih => intro F hF h; exact ih (eStep E F op) (hF.step op) (step_turn (hF.all hE) op e c h)
  rcases key ops F hF (Or.inl hc) with h | h
  · rw [h2] at h; cases h
  · exact h

/-- C77: once that era is over, nothing more is paid for it. -/
theorem C77_nothing_is_paid_afterwards (E : EPar) (hE : E.Sane) (F : Full) (hF : EReach E F) (e : Nat)
    (he : e + E.payDelay < F.led.era) (ops : List EOp) :
    (eRun E F ops).paid.filter (fun p => decide (p.era = e)) = F.paid.filter (fun p => decide (p.era = e)) := by
  induction ops generalizing F with
  | nil => rfl
  | cons op ops ih =>
    show (eRun E (eStep E F op) ops).paid.filter _ = _
    have hera := step_era hE hF op
    rw [ih (eStep E F op) (hF.step op) (by omega)]
    unfold eStep at hera ⊢
    cases ho : eCall E F op with
    | none => rfl
    | some F' =>
      rw [ho] at hera
      have hera : F.led.era ≤ F'.led.era := hera
      show F'.paid.filter _ = _
      rcases step_cases op with ⟨pub, now, a, p, rfl⟩ | hb
      · cases C76_amounts_of_a_turn E hE F F' hF pub now a p ho with
        | nothing log => rw [log]
        | turn d c pts all total sn m era _ _ _ _ _ _ log =>
          rw [log, List.filter_append]
          have : (m.map (fun x => (⟨d, c, x.1, x.2⟩ : Payment))).filter (fun q => decide (q.era = e)) = [] := by
            rw [List.filter_eq_nil_iff]
            intro y hy hh
            obtain ⟨z, _, rfl⟩ := List.mem_map.1 hy
            have : d = e := of_decide_eq_true hh
            omega
          rw [this, List.append_nil]
      · rw [(other_keys ho hb).2.2.1]

end Verif.Staking
