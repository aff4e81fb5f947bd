import Verif.Lemmas.Ledger
import Verif.Props.StakingPayoutCases
import Verif.Props.TokenManagerLower

/-!
# C118, C119, C120: native tokens under all pallets together

The steps are those of `Model/Ledger.lean`: everything the token manager does, every call and hook of the staking pallet, plain transfers,
and transaction fees. The specification is `Props/LedgerSpec.lean` and the next section. Assumed: the pot is an account without a key (`PalletId`), so nobody transfers, lowers or pays fees from it.
-/

namespace Verif.Ledger

open Verif.Staking

/-! ### Specification -/

/-- All native tokens: the balances of all accounts, and fees that were taken and not yet settled. -/
def Supply (S : Sys) (n : Nat) : Prop := ∃ m, TokenManager.Total S.F.led.free m ∧ n = m + S.held

/-- A genesis state: the genesis candidates and nominators join with free funds, then collators are chosen. -/
def Start (C : Cfg) (S : Sys) : Prop :=
  ∃ delay minTotal minCollator free setup, C.E.par.minPer ≤ minTotal ∧ Op.newEra ∉ setup ∧
    RespectsLocks C.E.par (St.init delay minTotal minCollator free) setup ∧
    genesis C.E (Staking.run C.E.par (St.init delay minTotal minCollator free) setup) = some S.F

/-- The step is not made with the pot's key. -/
def Keyless (C : Cfg) (S : Sys) (st : Step) : Prop := (∀ op, st ≠ .stake op) → payer C S st ≠ some C.E.pot

/-- A state some history reaches from genesis. -/
inductive Reach (C : Cfg) : Sys → Prop
  | start (S : Sys) : Start C S → Reach C S
  | step (S : Sys) (st : Step) : Reach C S → Keyless C S st → Reach C (step C S st)

/-- The step is the event of a growth lifted on Ethereum. -/
def IsGrowth (st : Step) : Prop := ∃ env amount period, st = .token env (.event (.growthLifted amount period))

/-! ### Helpers -/

/-- The invariant. -/
structure LInv (C : Cfg) (S : Sys) : Prop where
  reach : EReach C.E S.F
  cov : ∀ a, a ≠ C.E.pot → CovAt S.F.led a

theorem covered_run {P : Par} (hP : P.Sane) {delay mt mc : Nat} {free : Nat → Nat} (hm : P.minPer ≤ mt) (ops : List Op)
    (hr : RespectsLocks P (St.init delay mt mc free) ops) : Covered (Staking.run P (St.init delay mt mc free) ops) := by
  induction ops using List.reverseRecOn with
  | nil => intro b; exact ⟨Nat.zero_le _, Nat.zero_le _⟩
  | append_singleton ops op ih =>
    rw [run_snoc]
    refine covered_step hP (run_inv hP.ok hP.per.1 (init_inv hm) ops) (ih ?_) op ?_
    · intro pre b v post e
      exact hr pre b v (post ++ [op]) (by rw [e]; simp)
    · intro b v e
      exact hr ops b v [] (by rw [e])

theorem Start.inv {C : Cfg} (hE : C.E.Sane) {S : Sys} (h : Start C S) : LInv C S := by
  obtain ⟨d, mt, mc, fr, setup, hm, hn, hr, hg⟩ := h
  have hc := covered_run hE.par hm setup hr
  refine ⟨⟨S.F, [], ⟨d, mt, mc, fr, setup, hm, hn, hg⟩, rfl⟩, fun a _ => ?_⟩
  have hi := run_inv hE.par.ok hE.par.per.1 (init_inv (delay := d) (mc := mc) (free := fr) hm) setup
  obtain ⟨G, h1, h2⟩ := selectTop_ok (E := C.E) (F := blank C.E (Staking.run C.E.par (St.init d mt mc fr) setup)) hi 1
    (by intro c hc; cases hc)
  have : genesis C.E (Staking.run C.E.par (St.init d mt mc fr) setup) = some G := h1
  rw [this] at hg
  injection hg with hg
  have hl : S.F.led = Staking.run C.E.par (St.init d mt mc fr) setup := by rw [← hg]; exact h2.frame.led
  rw [hl]
  exact hc a

theorem payoutGrowth_reach {E : EPar} {F : Full} (h : EReach E F) (amount period : Nat) : EReach E (payoutGrowth E F amount period).1 :=
  h.step (.growthLifted amount period)

theorem payoutGrowth_cov {E : EPar} {F : Full} (amount period a : Nat) (hc : CovAt F.led a) :
    CovAt (payoutGrowth E F amount period).1.led a := by
  obtain ⟨h, _⟩ := payoutGrowth_ok E F amount period
  generalize (payoutGrowth E F amount period).1 = F' at *
  generalize (payoutGrowth E F amount period).2 = b at *
  cases h with
  | refused _ e => subst e; exact hc
  | failed _ f e m => subst e; exact ⟨Nat.le_trans hc.1 (m a), Nat.le_trans hc.2 (m a)⟩
  | done _ f e m => subst e; exact ⟨Nat.le_trans hc.1 (m a), Nat.le_trans hc.2 (m a)⟩

theorem payoutGrowth_mono {E : EPar} {F : Full} (amount period a : Nat) : F.led.free a ≤ (payoutGrowth E F amount period).1.led.free a := by
  obtain ⟨h, _⟩ := payoutGrowth_ok E F amount period
  generalize (payoutGrowth E F amount period).1 = F' at *
  generalize (payoutGrowth E F amount period).2 = b at *
  cases h with
  | refused _ e => subst e; exact Nat.le_refl _
  | failed _ f e m => subst e; exact m a
  | done _ f e m => subst e; exact m a

theorem stake_cases (C : Cfg) (S : Sys) (op : EOp) : stakeStep C S op = S ∨
    (stakeStep C S op = { S with F := eStep C.E S.F op } ∧ (∀ a p, op ≠ .growthLifted a p) ∧ ∀ a v, op ≠ .ledger (.setFree a v)) := by
  cases op with
  | growthLifted a p => exact .inl rfl
  | ledger o => cases o with
    | setFree a v => exact .inl rfl
    | _ => right; exact ⟨rfl, by intros; simp, by intros; simp⟩
  | _ => right; exact ⟨rfl, by intros; simp, by intros; simp⟩

theorem token_growth (C : Cfg) (S : Sys) (env : TokenManager.Env) (amount period : Nat) :
    (tokenStep C S env (.event (.growthLifted amount period))).F = growthF C S env amount period ∧
    (tokenStep C S env (.event (.growthLifted amount period))).held = S.held := ⟨rfl, rfl⟩

theorem credit_eff (F : Full) (w a : Nat) : Eff F (F.withFree (upd F.led.free w (F.led.free w + a))) none a 0 := .credit w a rfl rfl rfl

theorem LInv.step {C : Cfg} (hE : C.E.Sane) {S : Sys} (h : LInv C S) (st : Step) (hk : Keyless C S st) : LInv C (step C S st) := by
  cases st with
  | token env st =>
    have hk' := hk (by intro op e; cases e)
    by_cases hg : ∃ a p, st = .event (.growthLifted a p)
    · obtain ⟨a, p, rfl⟩ := hg
      rcases growthF_cases C S env a p with ⟨e, _⟩ | ⟨F1, h1, _, _, e, _⟩
      · exact ⟨by show EReach C.E (growthF ..); rw [e]; exact h.reach, by
          intro x hx; show CovAt (growthF C S env a p).led x; rw [e]; exact h.cov x hx⟩
      · have ef : Eff S.F F1 none (perbillMul env.growthPct a) 0 := by rw [h1]; exact credit_eff ..
        refine ⟨?_, ?_⟩
        · show EReach C.E (growthF ..)
          rw [e]
          exact payoutGrowth_reach (ef.reach (by simp) h.reach) _ _
        · intro x hx
          show CovAt (growthF C S env a p).led x
          rw [e]
          exact payoutGrowth_cov _ _ _ (ef.cov x (h.cov x hx))
    · have hg' : ∀ a p, st ≠ .event (.growthLifted a p) := fun a p e => hg ⟨a, p, e⟩
      have ef := (token_eff C S env st hg').1
      exact ⟨ef.reach hk' h.reach, fun x hx => ef.cov x (h.cov x hx)⟩
  | stake op =>
    rcases stake_cases C S op with e | ⟨e, h1, h2⟩
    · show LInv C (stakeStep C S op); rw [e]; exact h
    · show LInv C (stakeStep C S op)
      rw [e]
      exact ⟨h.reach.step op, fun x hx => (eStep_pays hE (h.reach.core hE) op h1 h2).2.1 x hx (h.cov x hx)⟩
  | transfer f d a =>
    have hk' := hk (by intro op e; cases e)
    have ef := (transfer_eff S f d a).1
    exact ⟨ef.reach hk' h.reach, fun x hx => ef.cov x (h.cov x hx)⟩
  | takeFee w fee =>
    have hk' := hk (by intro op e; cases e)
    obtain ⟨de, ef, _⟩ := takeFee_eff S w fee
    exact ⟨ef.reach hk' h.reach, fun x hx => ef.cov x (h.cov x hx)⟩
  | settleFee w p r =>
    obtain ⟨F1, c1, c2, e1, e2, _⟩ := settleFee_eff C S w p r
    exact ⟨e2.reach (by simp) (e1.reach (by simp) h.reach), fun x hx => e2.cov x (e1.cov x (h.cov x hx))⟩

theorem Reach.inv {C : Cfg} (hE : C.E.Sane) {S : Sys} (h : Reach C S) : LInv C S := by
  induction h with
  | start S h => exact h.inv hE
  | step S st _ hk ih => exact ih.step hE st hk

/-! ### C118: the supply -/

theorem supply_step_of_inv (C : Cfg) (hE : C.E.Sane) (S : Sys) (hS : LInv C S) (st : Step) (hg : ¬ IsGrowth st) (n : Nat)
    (hn : Supply S n) : ∃ n', Supply (step C S st) n' ∧ n' + destroyed C S st = n + created C S st := by
  obtain ⟨m, ht, rfl⟩ := hn
  cases st with
  | token env st =>
    have hg' : ∀ a p, st ≠ .event (.growthLifted a p) := fun a p e => hg ⟨env, a, p, by rw [e]⟩
    obtain ⟨ef, hh⟩ := token_eff C S env st hg'
    obtain ⟨m', h1, h2⟩ := ef.total ht
    exact ⟨m' + S.held, ⟨m', h1, by show _ = m' + (tokenStep C S env st).held; rw [hh]⟩, by omega⟩
  | stake op =>
    rcases stake_cases C S op with e | ⟨e, h1, h2⟩
    · exact ⟨m + S.held, by show Supply (stakeStep C S op) _; rw [e]; exact ⟨m, ht, rfl⟩, rfl⟩
    · refine ⟨m + S.held, ?_, rfl⟩
      show Supply (stakeStep C S op) _
      rw [e]
      exact ⟨m, (eStep_pays hE (hS.reach.core hE) op h1 h2).1.total m ht, rfl⟩
  | transfer f d a =>
    obtain ⟨ef, hh⟩ := transfer_eff S f d a
    obtain ⟨m', h1, h2⟩ := ef.total ht
    exact ⟨m' + S.held, ⟨m', h1, by show _ = m' + (transferStep S f d a).held; rw [hh]⟩, by show _ + 0 = _ + 0; omega⟩
  | takeFee w fee =>
    obtain ⟨de, ef, hh⟩ := takeFee_eff S w fee
    obtain ⟨m', h1, h2⟩ := ef.total ht
    exact ⟨m' + (S.held + de), ⟨m', h1, by show _ = m' + (takeFee S w fee).held; rw [hh]⟩, by show _ + 0 = _ + 0; omega⟩
  | settleFee w p r =>
    obtain ⟨F1, c1, c2, e1, e2, hh⟩ := settleFee_eff C S w p r
    obtain ⟨m1, h1, h2⟩ := e1.total ht
    obtain ⟨m2, h3, h4⟩ := e2.total h1
    exact ⟨m2 + (settleFee C S w p r).held, ⟨m2, h3, rfl⟩, by show _ + 0 = _ + 0; omega⟩

/-- **C118.** In every reachable state, a step that is not a growth lift changes the total number of native tokens by exactly what it lifts
or refunds minus what it lowers. In particular transfers, fees, staking calls, era rewards and refused calls change it by nothing. -/
theorem C118_supply_step (C : Cfg) (hE : C.E.Sane) (S : Sys) (hS : Reach C S) (st : Step) (hg : ¬ IsGrowth st) (n : Nat)
    (hn : Supply S n) : ∃ n', Supply (step C S st) n' ∧ n' + destroyed C S st = n + created C S st :=
  supply_step_of_inv C hE S (hS.inv hE) st hg n hn

/-- **C118 (growth, partial).** A growth lift of `amount` that is accepted creates at least `amount` and exceeds it by at most half a unit for each
collator of the period; one that is rejected destroys nothing and may still create that much. Missing: exactly `amount`, or nothing when rejected
(`C118_full_claim_false`). -/
theorem C118_growth_step_partial (C : Cfg) (hE : C.E.Sane) (S : Sys) (hS : Reach C S) (env : TokenManager.Env) (amount period n : Nat)
    (hpct : env.growthPct ≤ billion) (hn : Supply S n) :
    ∃ g, Supply (step C S (.token env (.event (.growthLifted amount period)))) (n + g) ∧
      2 * g ≤ 2 * amount + sharers S.F period ∧
      (accepted C S env (.event (.growthLifted amount period)) = true → amount ≤ g) ∧ (env.eventKnown = false → g = 0) := by
  obtain ⟨m, ht, rfl⟩ := hn
  have hp : perbillMul env.growthPct amount ≤ amount := TokenManager.perbillMul_le _ _ hpct
  rcases growthF_cases C S env amount period with ⟨e, ha⟩ | ⟨F1, h1, hne, hk, e, ha⟩
  · refine ⟨0, ⟨m, ?_, rfl⟩, by omega, fun h => (by rw [ha] at h; cases h), fun _ => rfl⟩
    show TokenManager.Total (growthF C S env amount period).led.free m
    rw [e]; exact ht
  · have ef : Eff S.F F1 none (perbillMul env.growthPct amount) 0 := by rw [h1]; exact credit_eff ..
    obtain ⟨m', t1, e1⟩ := ef.total ht
    have htr : F1.led.free C.E.treasury ≠ 0 := by
      rw [h1]
      show upd S.F.led.free C.E.treasury _ C.E.treasury ≠ 0
      rw [upd_same]; omega
    obtain ⟨g, t2, g1, g2⟩ := payoutGrowth_total C.E F1 (amount - perbillMul env.growthPct amount) period t1 htr
    have hb := growthShares_bound ((ef.reach (by simp) (hS.inv hE).reach).all hE).grow (amount - perbillMul env.growthPct amount) period
    rw [growthShares_length] at hb
    have hs : sharers F1 period = sharers S.F period := by rw [h1]; rfl
    rw [hs] at hb
    refine ⟨perbillMul env.growthPct amount + g, ⟨m' + g, ?_, ?_⟩, ?_, ?_, fun h => (by rw [hk] at h; cases h)⟩
    · show TokenManager.Total (growthF C S env amount period).led.free (m' + g)
      rw [e]; exact t2
    · show m + S.held + _ = m' + g + S.held
      omega
    · cases hr : (payoutGrowth C.E F1 (amount - perbillMul env.growthPct amount) period).2 with
      | true =>
        have := g1 hr
        rcases Nat.le_total (amount - perbillMul env.growthPct amount)
          (valSum (growthShares F1 (amount - perbillMul env.growthPct amount) period)) with hle | hle
        · rw [Nat.max_eq_right hle] at this; omega
        · rw [Nat.max_eq_left hle] at this; omega
      | false => have := g2 hr; omega
    · intro hacc
      rw [ha] at hacc
      have := g1 hacc
      have := Nat.le_max_left (amount - perbillMul env.growthPct amount)
        (valSum (growthShares F1 (amount - perbillMul env.growthPct amount) period))
      omega

/-- **C118 (growth, exactly).** An accepted growth lift creates the treasury's share and the larger of the rest and the sum of the collators' rounded
shares. -/
theorem C118_accepted_growth (C : Cfg) (S : Sys) (env : TokenManager.Env) (amount period n : Nat) (hn : Supply S n)
    (ha : accepted C S env (.event (.growthLifted amount period)) = true) :
    Supply (step C S (.token env (.event (.growthLifted amount period))))
      (n + perbillMul env.growthPct amount + max (amount - perbillMul env.growthPct amount)
        ((growthShares S.F (amount - perbillMul env.growthPct amount) period).map Prod.snd).sum) := by
  obtain ⟨m, ht, rfl⟩ := hn
  rcases growthF_cases C S env amount period with ⟨_, h⟩ | ⟨F1, h1, hne, hk, e, h⟩
  · rw [h] at ha; cases ha
  · have ef : Eff S.F F1 none (perbillMul env.growthPct amount) 0 := by rw [h1]; exact credit_eff ..
    obtain ⟨m', t1, e1⟩ := ef.total ht
    have htr : F1.led.free C.E.treasury ≠ 0 := by
      rw [h1]
      show upd S.F.led.free C.E.treasury _ C.E.treasury ≠ 0
      rw [upd_same]; omega
    obtain ⟨g, t2, g1, _⟩ := payoutGrowth_total C.E F1 (amount - perbillMul env.growthPct amount) period t1 htr
    rw [h] at ha
    have hg := g1 ha
    have hs : growthShares F1 (amount - perbillMul env.growthPct amount) period =
        growthShares S.F (amount - perbillMul env.growthPct amount) period := by rw [h1]; rfl
    rw [hs] at hg
    refine ⟨m' + g, ?_, ?_⟩
    · show TokenManager.Total (growthF C S env amount period).led.free (m' + g)
      rw [e]; exact t2
    · show _ = m' + g + S.held
      have : g = max (amount - perbillMul env.growthPct amount)
        ((growthShares S.F (amount - perbillMul env.growthPct amount) period).map Prod.snd).sum := hg
      omega

/-- **C118 (growth, rejected).** A growth lift of a period that was paid out already creates the treasury's share, although it is rejected. -/
theorem C118_repeated_growth (C : Cfg) (S : Sys) (env : TokenManager.Env) (amount period n : Nat) (hn : Supply S n)
    (hk : env.eventKnown = true) (h0 : perbillMul env.growthPct amount ≠ 0)
    (hov : S.F.led.free C.E.treasury + perbillMul env.growthPct amount < pow128) (hpr : S.F.processed period = true) :
    accepted C S env (.event (.growthLifted amount period)) = false ∧
    Supply (step C S (.token env (.event (.growthLifted amount period)))) (n + perbillMul env.growthPct amount) := by
  obtain ⟨m, ht, rfl⟩ := hn
  have ham : amount ≠ 0 := by
    rintro rfl
    apply h0
    unfold perbillMul divNearestDown
    simp
  have hF : growthF C S env amount period =
      S.F.withFree (upd S.F.led.free C.E.treasury (S.F.led.free C.E.treasury + perbillMul env.growthPct amount)) ∧
      accepted C S env (.event (.growthLifted amount period)) = false := by
    rcases growthF_cases C S env amount period with ⟨e, h⟩ | ⟨F1, h1, _, _, e, h⟩
    · refine ⟨?_, h⟩
      unfold growthF
      rw [if_neg (by simp [hk, ham])]
      have hov' : (load C S).avt C.treasury + perbillMul env.growthPct amount < pow128 := by
        show S.F.led.free (C.N.num C.treasury) + _ < _
        rw [C.same]; exact hov
      have hc : TokenManager.creditAvt (load C S) C.treasury (perbillMul env.growthPct amount) =
          ({ load C S with avt := upd (load C S).avt C.treasury ((load C S).avt C.treasury + perbillMul env.growthPct amount) }, none) := by
        unfold TokenManager.creditAvt
        rw [if_neg]
        intro hh
        rcases hh with hh | hh
        · exact h0 hh
        · omega
      rw [hc]
      dsimp only
      have hs : store C.N S.F (upd (load C S).avt C.treasury ((load C S).avt C.treasury + perbillMul env.growthPct amount)) =
          S.F.withFree (upd S.F.led.free C.E.treasury (S.F.led.free C.E.treasury + perbillMul env.growthPct amount)) := by
        rw [store_upd]
        have : (load C S).avt = avtOf C.N S.F := rfl
        rw [this, store_self]
        unfold avtOf
        rw [C.same]
      rw [hs]
      generalize hF1 : S.F.withFree (upd S.F.led.free C.E.treasury (S.F.led.free C.E.treasury + perbillMul env.growthPct amount)) = F1
      have hp1 : F1.processed period = true := by rw [← hF1]; exact hpr
      unfold payoutGrowth
      rw [if_pos hp1]
    · have hp1 : F1.processed period = true := by rw [h1]; exact hpr
      have hq : payoutGrowth C.E F1 (amount - perbillMul env.growthPct amount) period = (F1, false) := by
        unfold payoutGrowth
        rw [if_pos hp1]
      rw [hq] at e h
      exact ⟨e.trans h1, h⟩
  refine ⟨hF.2, ⟨m + perbillMul env.growthPct amount, ?_, ?_⟩⟩
  · show TokenManager.Total (growthF C S env amount period).led.free _
    rw [hF.1]
    exact total_add ht
  · show m + S.held + _ = _ + S.held
    omega

/-- What a history creates by lifts and reverts. -/
def createdIn (C : Cfg) : Sys → List Step → Nat
  | _, [] => 0
  | S, st :: h => created C S st + createdIn C (step C S st) h

/-- What a history destroys by lowers. -/
def destroyedIn (C : Cfg) : Sys → List Step → Nat
  | _, [] => 0
  | S, st :: h => destroyed C S st + destroyedIn C (step C S st) h

/-- No step is made with the pot's key. -/
def KeylessRun (C : Cfg) : Sys → List Step → Prop
  | _, [] => True
  | S, st :: h => Keyless C S st ∧ KeylessRun C (step C S st) h

/-- **C118 (histories).** Over any history without growth lifts, the number of native tokens at the end is the number at the beginning plus what was
lifted and refunded minus what was lowered. -/
theorem C118_supply_history (C : Cfg) (hE : C.E.Sane) (S : Sys) (hS : Reach C S) (h : List Step) (hk : KeylessRun C S h)
    (hg : ∀ st ∈ h, ¬ IsGrowth st) (n : Nat) (hn : Supply S n) :
    ∃ n', Supply (run C S h) n' ∧ n' + destroyedIn C S h = n + createdIn C S h := by
  induction h generalizing S n with
  | nil => exact ⟨n, hn, rfl⟩
  | cons st h ih =>
    obtain ⟨n1, h1, e1⟩ := C118_supply_step C hE S hS st (hg st (List.mem_cons_self ..)) n hn
    obtain ⟨n2, h2, e2⟩ := ih (step C S st) (.step S st hS hk.1) hk.2 (fun x hx => hg x (List.mem_cons_of_mem _ hx)) n1 h1
    refine ⟨n2, h2, ?_⟩
    show n2 + (destroyed C S st + destroyedIn C (step C S st) h) = n + (created C S st + createdIn C (step C S st) h)
    omega

/-- Twice the amount of a growth lift, and one for each collator sharing in it. -/
def offered (S : Sys) : Step → Nat
  | .token _ (.event (.growthLifted amount period)) => 2 * amount + sharers S.F period
  | _ => 0

/-- The amount of an accepted growth lift. -/
def grown (C : Cfg) (S : Sys) : Step → Nat
  | .token env (.event (.growthLifted amount period)) =>
    if accepted C S env (.event (.growthLifted amount period)) = true then amount else 0
  | _ => 0

/-- Twice the amounts of the growth lifts of a history, and one for each collator sharing in one. -/
def growthIn (C : Cfg) : Sys → List Step → Nat
  | _, [] => 0
  | S, st :: h => offered S st + growthIn C (step C S st) h

/-- The amounts of the accepted growth lifts of a history. -/
def growthAccepted (C : Cfg) : Sys → List Step → Nat
  | _, [] => 0
  | S, st :: h => grown C S st + growthAccepted C (step C S st) h

/-- **C118 (histories with growth, partial).** Over any history, what growth lifts added is at least the amounts accepted and at most the
amounts offered plus half a unit for each collator sharing in one. Missing: exactly the amounts accepted. -/
theorem C118_supply_with_growth_partial (C : Cfg) (hE : C.E.Sane) (S : Sys) (hS : Reach C S) (h : List Step) (hk : KeylessRun C S h)
    (hp : ∀ env amount period, Step.token env (.event (.growthLifted amount period)) ∈ h → env.growthPct ≤ billion)
    (n : Nat) (hn : Supply S n) :
    ∃ n' g, Supply (run C S h) n' ∧ n' + destroyedIn C S h = n + createdIn C S h + g ∧ growthAccepted C S h ≤ g ∧
      2 * g ≤ growthIn C S h := by
  induction h generalizing S n with
  | nil => exact ⟨n, 0, hn, rfl, Nat.le_refl _, Nat.le_refl _⟩
  | cons st h ih =>
    have next := fun n1 h1 => ih (step C S st) (.step S st hS hk.1) hk.2
      (fun env a p hx => hp env a p (List.mem_cons_of_mem _ hx)) n1 h1
    by_cases hg : IsGrowth st
    · obtain ⟨env, a, p, rfl⟩ := hg
      obtain ⟨g1, h1, e1, e2, _⟩ := C118_growth_step_partial C hE S hS env a p n (hp env a p (List.mem_cons_self ..)) hn
      obtain ⟨n2, g2, h2, e3, e4, e5⟩ := next _ h1
      refine ⟨n2, g1 + g2, h2, ?_, ?_, ?_⟩
      · show n2 + (0 + destroyedIn C _ h) = n + (0 + createdIn C _ h) + (g1 + g2)
        omega
      · show (if accepted C S env (.event (.growthLifted a p)) = true then a else 0) + growthAccepted C _ h ≤ g1 + g2
        by_cases ha : accepted C S env (.event (.growthLifted a p)) = true
        · rw [if_pos ha]; have := e2 ha; omega
        · rw [if_neg ha]; omega
      · show 2 * (g1 + g2) ≤ 2 * a + sharers S.F p + growthIn C _ h
        omega
    · obtain ⟨n1, h1, e1⟩ := C118_supply_step C hE S hS st hg n hn
      obtain ⟨n2, g2, h2, e3, e4, e5⟩ := next _ h1
      refine ⟨n2, g2, h2, ?_, ?_, ?_⟩
      · show n2 + (destroyed C S st + destroyedIn C _ h) = n + (created C S st + createdIn C _ h) + g2
        omega
      · have : grown C S st = 0 := by
          unfold grown
          split
          · rename_i env a p; exact absurd ⟨env, a, p, rfl⟩ hg
          · rfl
        show grown C S st + growthAccepted C _ h ≤ g2
        omega
      · show 2 * g2 ≤ offered S st + growthIn C _ h
        omega

/-! ### C119: stakes are covered -/

theorem covered_of_inv (C : Cfg) (hE : C.E.Sane) (S : Sys) (h : LInv C S) (a : Nat) (ha : a ≠ C.E.pot) :
    staked S.F.led a ≤ S.F.led.free a := by
  have hc := h.cov a ha
  have hi := (h.reach.core hE).led
  generalize S.F.led = s at hc hi
  unfold staked
  have l := hi.g.c.lock a
  cases e : s.noms a with
  | none =>
    rw [← l]
    simpa using hc.2
  | some r =>
    rw [hi.g.excl a (by rw [e]; rfl)]
    have g := hi.g.n.some a r e
    have : bondSum r.noms = s.nlock a := by rw [g.lock, g.total]; rfl
    simp only [Option.map_none, Option.getD_none, Option.map_some, Option.getD_some, Nat.zero_add, this]
    exact hc.1

/-- **C119.** In every reachable state all that an account has staked is covered by its own balance: no transfer, lower, fee, relayer fee or
event of any pallet takes staked tokens away. (The pot does not stake.) -/
theorem C119_stake_is_covered (C : Cfg) (hE : C.E.Sane) (S : Sys) (hS : Reach C S) (a : Nat) (ha : a ≠ C.E.pot) :
    staked S.F.led a ≤ S.F.led.free a :=
  covered_of_inv C hE S (hS.inv hE) a ha

/-- **C119** (the assumptions of the staking theorems): what the other pallets do to balances is a history of the staking model, so every
statement about its reachable states holds in the whole system. -/
theorem C119_staking_history (C : Cfg) (hE : C.E.Sane) (S : Sys) (hS : Reach C S) : EReach C.E S.F := (hS.inv hE).reach

/-! ### C120: who pays -/

/-- **C120.** A step lowers only one account's native balance: that of the sender of a transfer (plain, signed or relayed), of the payer of a
transaction fee, relayer fee or treasury payment, of the sender of an executed lower, of the treasury in a call by root, or of the pot in the
hooks of a block. (That a payer keeps its staked amount is C119.) -/
theorem C120_only_the_payer_pays (C : Cfg) (hE : C.E.Sane) (S : Sys) (hS : Reach C S) (st : Step) (a : Nat) (hp : payer C S st ≠ some a) :
    S.F.led.free a ≤ (step C S st).F.led.free a := by
  cases st with
  | token env st =>
    by_cases hg : ∃ x p, st = .event (.growthLifted x p)
    · obtain ⟨x, p, rfl⟩ := hg
      show _ ≤ (growthF C S env x p).led.free a
      rcases growthF_cases C S env x p with ⟨e, _⟩ | ⟨F1, h1, _, _, e, _⟩
      · rw [e]
      · have ef : Eff S.F F1 none (perbillMul env.growthPct x) 0 := by rw [h1]; exact credit_eff ..
        rw [e]
        exact Nat.le_trans (ef.mono a (by simp)) (payoutGrowth_mono _ _ _)
    · exact (token_eff C S env st (fun x p e => hg ⟨x, p, e⟩)).1.mono a hp
  | stake op =>
    show _ ≤ (stakeStep C S op).F.led.free a
    rcases stake_cases C S op with e | ⟨e, h1, h2⟩
    · rw [e]
    · rw [e]
      have := eStep_pays hE ((hS.inv hE).reach.core hE) op h1 h2
      by_cases hb : ∃ pub now author pick, op = .block pub now author pick
      · obtain ⟨pub, now, author, pick, rfl⟩ := hb
        exact this.1.mono a (fun e => hp (by rw [e]; rfl))
      · show _ ≤ (eStep C.E S.F op).led.free a
        rw [this.2.2 (fun pub now author pick e => hb ⟨pub, now, author, pick, e⟩)]
  | transfer f d x => exact (transfer_eff S f d x).1.mono a hp
  | takeFee w fee => obtain ⟨de, ef, _⟩ := takeFee_eff S w fee; exact ef.mono a hp
  | settleFee w p r =>
    obtain ⟨F1, c1, c2, e1, e2, _⟩ := settleFee_eff C S w p r
    exact Nat.le_trans (e1.mono a (by simp)) (e2.mono a (by simp))

/-- **C120** (calls of the staking pallet): no staking call moves native tokens at all, they only lock and unlock. -/
theorem C120_staking_calls_move_nothing (C : Cfg) (hE : C.E.Sane) (S : Sys) (hS : Reach C S) (op : EOp)
    (hb : ∀ pub now author pick, op ≠ .block pub now author pick) : (step C S (.stake op)).F.led.free = S.F.led.free := by
  show (stakeStep C S op).F.led.free = _
  rcases stake_cases C S op with e | ⟨e, h1, h2⟩
  · rw [e]
  · rw [e]
    exact (eStep_pays hE ((hS.inv hE).reach.core hE) op h1 h2).2.2 hb

/-- **C120** (signatures): a direct or relayed signed transfer lowers the sender's native balance only if the proof is a signature over exactly these
parameters with the sender's current nonce. -/
theorem C120_signed_transfer_needs_signature (C : Cfg) (S : Sys) (env : TokenManager.Env) (st : TokenManager.Step) (o r : Acct) (p : Proof)
    (f d : Acct) (t : Addr) (amount : Nat) (hst : st = .signedTransfer o p f d t amount ∨ st = .proxy r (.transfer p f d t amount))
    (hlt : (step C S (.token env st)).F.led.free (C.N.num f) < S.F.led.free (C.N.num f)) :
    verifySignature env.crypto p (TokenManager.encodeTransfer p.relayer f d t amount (S.tm.nonce f)) = true := by
  have e : (step C S (.token env st)).F = store C.N S.F (TokenManager.step (envOf C S.F env) (load C S) st).1.avt := by
    rcases hst with rfl | rfl <;> rfl
  rw [e] at hlt
  have hv := TokenManager.step_view (envOf C S.F env) (load C S) st
  generalize TokenManager.step (envOf C S.F env) (load C S) st = res at hv hlt
  have same : ∀ res' : TokenManager.Res, res'.1.avt = avtOf C.N S.F →
      ¬ (store C.N S.F res'.1.avt).led.free (C.N.num f) < S.F.led.free (C.N.num f) := by
    intro res' h
    rw [h, store_self]
    exact Nat.lt_irrefl _
  rcases hst with rfl | rfl
  · cases hv with
    | fail _ e => exact absurd hlt (same _ rfl)
    | transfer _ p' f' d' t' a' bal' avt' h hs hm =>
      rcases h with h | ⟨_, h⟩
      · cases h; exact hs
      · cases h
    | signedLower => exact absurd hlt (same _ rfl)
  · cases hv with
    | fail _ e => exact absurd hlt (same _ rfl)
    | transfer _ p' f' d' t' a' bal' avt' h hs hm =>
      rcases h with h | ⟨_, h⟩
      · cases h
      · cases h; exact hs
    | signedLower => exact absurd hlt (same _ rfl)

/-! ### Concrete cases -/

/-- Accounts numbered by their bytes as a little-endian number. -/
def leNumbering : Numbering where
  num a := leVal a.toList
  inv n := if n < 256 ^ 32 then some ⟨(leBytes 32 n).toArray, by simp⟩ else none
  left := by
    intro a
    have h := leVal_lt a.toList
    have h2 := leBytes_leVal a.toList
    rw [Vector.length_toList] at h h2
    rw [if_pos h]
    congr 1
    apply Vector.toList_inj.1
    exact h2
  right := by
    intro n a h
    by_cases hn : n < 256 ^ 32
    · rw [if_pos hn] at h
      injection h with h
      rw [← h]
      exact leVal_leBytes 32 n hn
    · rw [if_neg hn] at h; cases h

/-- The account with this number. -/
def acc (n : Nat) : Acct := ⟨(leBytes 32 n).toArray, by simp⟩

/-- Three collators, the treasury is account 91. -/
def cfg3 : Cfg := ⟨threeE, leNumbering, acc 91, by decide +kernel⟩

/-- The first hundred accounts have 1000 each. -/
def free3 (a : Nat) : Nat := if a < 100 then 1000 else 0

/-- The staking storage at genesis. -/
def full3 : Full :=
  (genesis threeE (Staking.run smallPar (St.init 2 1 5 free3) threeSetup)).getD (blank threeE (Staking.run smallPar (St.init 2 1 5 free3) threeSetup))

/-- The system at genesis. -/
def sys3 : Sys := ⟨TokenManager.s0, full3, 0⟩

theorem sys3_start : Start cfg3 sys3 := by
  obtain ⟨G, hG⟩ := Option.isSome_iff_exists.1 (C75_genesis_never_panics threeE threeE_sane 2 1 5 free3 threeSetup (by decide) (by simp [threeSetup]))
  refine ⟨2, 1, 5, free3, threeSetup, by decide, by simp [threeSetup], ?_, ?_⟩
  · intro pre a v post e
    have : Op.setFree a v ∈ threeSetup := by rw [e]; simp
    simp [threeSetup] at this
  · show genesis threeE (Staking.run smallPar (St.init 2 1 5 free3) threeSetup) = some full3
    unfold full3
    have hG' : genesis threeE (Staking.run smallPar (St.init 2 1 5 free3) threeSetup) = some G := hG
    rw [hG']
    rfl

theorem run_free {P : Par} (hP : P.Sane) {s : St} (h : Staking.Inv P s) (ops : List Op) (hn : ∀ a v, Op.setFree a v ∉ ops) :
    (Staking.run P s ops).free = s.free := by
  induction ops generalizing s with
  | nil => rfl
  | cons op ops ih =>
    have st := step_ok hP.ok hP.per.1 h op
    show (Staking.run P (Staking.step P s op) ops).free = s.free
    rw [ih st.inv (fun a v hh => hn a v (List.mem_cons_of_mem _ hh))]
    rcases st.free with e | ⟨a, v, rfl, _⟩
    · exact e
    · exact absurd (List.mem_cons_self ..) (hn a v)

theorem sys3_supply : Supply sys3 100000 := by
  refine ⟨100000, ⟨Finset.range 100, ?_, ?_⟩, rfl⟩
  · intro a ha
    have e : sys3.F.led.free = free3 := by
      have hi := run_inv threeE_sane.par.ok threeE_sane.par.per.1 (init_inv (delay := 2) (mc := 5) (free := free3) (show threeE.par.minPer ≤ 1 by decide)) threeSetup
      obtain ⟨G, h1, h2⟩ := selectTop_ok (E := threeE) (F := blank threeE (Staking.run threeE.par (St.init 2 1 5 free3) threeSetup)) hi 1
        (by intro c hc; cases hc)
      show full3.led.free = free3
      unfold full3
      have : genesis threeE (Staking.run smallPar (St.init 2 1 5 free3) threeSetup) = some G := h1
      rw [this]
      show G.led.free = free3
      rw [h2.frame.led]
      exact run_free threeE_sane.par (init_inv (show threeE.par.minPer ≤ 1 by decide)) threeSetup (by intro a v; simp [threeSetup])
    rw [e]
    unfold free3
    rw [if_neg (by simpa using ha)]
  · decide +kernel

/-- An event of a lifted growth of eight units; three quarters go to the treasury. -/
def grow8 : Step := .token TokenManager.env0 (.event (.growthLifted 8 5))

/-- **C118 (counterexample).** The full claim is false. From a genesis with 100000 units, an accepted growth lift of 8 creates 9, because the three
collators' shares of 2 are rounded up; and a second lift for the same period, which is rejected, still creates 6. -/
theorem C118_full_claim_false :
    ∃ C S env n, EPar.Sane C.E ∧ Reach C S ∧ Supply S n ∧
      accepted C S env (.event (.growthLifted 8 5)) = true ∧ Supply (step C S (.token env (.event (.growthLifted 8 5)))) (n + 9) ∧
      accepted C (step C S (.token env (.event (.growthLifted 8 5)))) env (.event (.growthLifted 8 5)) = false ∧
      Supply (run C S [.token env (.event (.growthLifted 8 5)), .token env (.event (.growthLifted 8 5))]) (n + 15) := by
  have h1 : accepted cfg3 sys3 TokenManager.env0 (.event (.growthLifted 8 5)) = true := by decide +kernel
  have h2 := C118_accepted_growth cfg3 sys3 TokenManager.env0 8 5 100000 sys3_supply h1
  have e2 : 100000 + perbillMul TokenManager.env0.growthPct 8 + max (8 - perbillMul TokenManager.env0.growthPct 8)
        ((growthShares sys3.F (8 - perbillMul TokenManager.env0.growthPct 8) 5).map Prod.snd).sum = 100000 + 9 := by decide +kernel
  rw [e2] at h2
  obtain ⟨h3, h4⟩ := C118_repeated_growth cfg3 (step cfg3 sys3 grow8) TokenManager.env0 8 5 (100000 + 9) h2 rfl (by decide +kernel) (by decide +kernel)
    (by decide +kernel)
  have e4 : 100000 + 9 + perbillMul TokenManager.env0.growthPct 8 = 100000 + 15 := by decide +kernel
  rw [e4] at h4
  exact ⟨cfg3, sys3, TokenManager.env0, 100000, threeE_sane, .start _ sys3_start, sys3_supply, h1, h2, h3, h4⟩

/-- A history with everything: a plain transfer, a lift of the native token, a fee taken and settled, a nomination, the lift of token 1 of account 5 lowered
again, and blocks. -/
def hist3 : List Step :=
  [.transfer 5 6 100, .token TokenManager.env0 (.event (.lifted TokenManager.s0.avtContract (acc 6) 70)), .takeFee 6 20,
   .token TokenManager.env0 (.scheduleDirectLower (acc 6) (acc 6) TokenManager.s0.avtContract 30 (Vector.replicate 20 7)),
   .settleFee 6 20 5, .stake (.ledger (.nominate 6 1 900 10 10)), .token TokenManager.env0 (.dispatchScheduled 0),
   .stake (.block (fun _ => none) 1 1 0), .transfer 6 5 300, .transfer 6 5 200]

/-- Everything in it is accepted except the ninth step, a transfer that would reach into the nominated tokens: 70 are created, 30 destroyed. -/
example : createdIn cfg3 sys3 hist3 = 70 ∧ destroyedIn cfg3 sys3 hist3 = 30 ∧ (run cfg3 sys3 hist3).held = 0 ∧
    (run cfg3 sys3 (hist3.take 9)).F.led.free 6 = 1125 ∧ (run cfg3 sys3 hist3).F.led.free 6 = 925 ∧ staked (run cfg3 sys3 hist3).F.led 6 = 900 := by
  decide +kernel

theorem hist3_reach : KeylessRun cfg3 sys3 hist3 := by
  refine ⟨?_, ?_, ?_, ?_, ?_, ?_, ?_, ?_, ?_, ?_, trivial⟩ <;> intro h <;> first | exact absurd rfl (h _) | (decide +kernel)

/-- So after it there are 100040. -/
example : Supply (run cfg3 sys3 hist3) 100040 := by
  obtain ⟨n', h, e⟩ := C118_supply_history cfg3 threeE_sane sys3 (.start _ sys3_start) hist3 hist3_reach (by
    intro st hst hg
    obtain ⟨env, a, p, rfl⟩ := hg
    simp [hist3] at hst) 100000 sys3_supply
  have h1 : createdIn cfg3 sys3 hist3 = 70 := by decide +kernel
  have h2 : destroyedIn cfg3 sys3 hist3 = 30 := by decide +kernel
  rw [h1, h2] at e
  have : n' = 100040 := by omega
  rw [← this]; exact h

end Verif.Ledger
