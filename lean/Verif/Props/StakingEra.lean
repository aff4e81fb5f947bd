import Verif.Lemmas.StakingEra2
import Verif.Props.Staking

/-!
# C49, C51, C52: eras, the choice of collators, and the pot

Statements are about every state reached by a history of blocks, ledger calls, admin calls, bridge results and lifted growths from a
genesis state.
-/

namespace Verif.Staking

/-! ### Specification -/

/-- Constants that make sense: payouts are at least one era late, and an era has at least one block (2 and 20 in production). -/
structure EPar.Sane (E : EPar) : Prop where
  par : E.par.Sane
  delay : 1 ≤ E.payDelay
  blocks : 1 ≤ E.minBlocks

/-- A genesis state: genesis candidates and nominators join, then collators are chosen. -/
def EStart (E : EPar) (F : Full) : Prop :=
  ∃ delay minTotal minCollator free setup, E.par.minPer ≤ minTotal ∧ Op.newEra ∉ setup ∧
    genesis E (run E.par (St.init delay minTotal minCollator free) setup) = some F

/-- A state some history reaches from genesis. -/
def EReach (E : EPar) (F : Full) : Prop := ∃ F0 ops, EStart E F0 ∧ F = eRun E F0 ops

/-- A candidate may be chosen: it is active and its own bond with its counted nominations meets the minimum. -/
def Eligible (s : St) (c stake : Nat) : Prop :=
  ∃ r, s.cands c = some r ∧ r.info.status = .active ∧ stake = r.info.bond + bondSum r.top.list ∧ s.minCollator ≤ stake

/-- What a good choice of at most `n` collators is. -/
structure BestChoice (s : St) (n : Nat) (chosen : List Nat) : Prop where
  size : chosen.length ≤ n
  once : chosen.Nodup
  members : ∀ c ∈ chosen, ∃ stake, Eligible s c stake
  best : ∀ c stake, Eligible s c stake → c ∉ chosen →
    chosen.length = n ∧ ∀ d ∈ chosen, ∀ stake', Eligible s d stake' → stake ≤ stake'

/-- The numbers of the blocks of a history. -/
def blockNumbers (ops : List EOp) : List Nat :=
  ops.filterMap (fun op => match op with | .block _ now _ _ => some now | _ => none)

/-- The first blocks of the eras that start during a history. -/
def eraStarts (E : EPar) : Full → List EOp → List Nat
  | _, [] => []
  | F, op :: ops =>
    if (eStep E F op).led.era ≠ F.led.era then (eStep E F op).first :: eraStarts E (eStep E F op) ops
    else eraStarts E (eStep E F op) ops

/-! ### Helpers -/

theorem run_era (P : Par) (hP : P.Ok) (hmax : 1 ≤ P.maxPer) {s : St} (h : Inv P s) (ops : List Op) (hn : Op.newEra ∉ ops) :
    (run P s ops).era = s.era := by
  induction ops generalizing s with
  | nil => rfl
  | cons op ops ih =>
    have h1 := step_ok hP hmax h op
    have e : (step P s op).era = s.era := by
      rcases h1.era with e | ⟨rfl, _⟩
      · exact e
      · exact absurd (List.mem_cons_self ..) hn
    show (run P (step P s op) ops).era = s.era
    rw [ih h1.inv (fun hh => hn (List.mem_cons_of_mem _ hh)), e]

theorem EStart.core {E : EPar} (hE : E.Sane) {F : Full} (h : EStart E F) : Core E F := by
  obtain ⟨d, mt, mc, fr, setup, hm, hn, hg⟩ := h
  have hi := run_inv hE.par.ok hE.par.per.1 (init_inv (delay := d) (mc := mc) (free := fr) hm) setup
  have he : (run E.par (St.init d mt mc fr) setup).era = 1 := run_era E.par hE.par.ok hE.par.per.1 (init_inv hm) setup hn
  obtain ⟨G, h1, h2⟩ := genesis_core hi he
  rw [h1] at hg
  injection hg with hg
  subst hg
  exact h2

theorem EReach.core {E : EPar} (hE : E.Sane) {F : Full} (h : EReach E F) : Core E F := by
  obtain ⟨F0, ops, h0, rfl⟩ := h
  exact eRun_core hE.par.ok hE.par.per.1 hE.delay hE.blocks (h0.core hE) ops

theorem EReach.step {E : EPar} {F : Full} (h : EReach E F) (op : EOp) : EReach E (eStep E F op) := by
  obtain ⟨F0, ops, h0, rfl⟩ := h
  exact ⟨F0, ops ++ [op], h0, (eRun_snoc ..).symm⟩

theorem eligible_iff {P : Par} {s : St} (h : Inv P s) {c x : Nat} :
    Eligible s c x ↔ (⟨c, x⟩ : Bond) ∈ s.pool ∧ s.minCollator ≤ x := by
  constructor
  · rintro ⟨r, h1, h2, h3, h4⟩
    have hi := h.g.c.inv c r h1
    have ha : r.info.isActive = true := by unfold Info.isActive; rw [h2]; rfl
    have := hi.pool.yes ha
    rw [hi.cache.counted] at this
    refine ⟨?_, h4⟩
    rw [h3]
    exact this
  · rintro ⟨h1, h2⟩
    obtain ⟨r, hr⟩ := Option.isSome_iff_exists.1 (h.g.c.dom _ h1)
    have hi := h.g.c.inv c r hr
    cases ha : r.info.isActive with
    | false => exact absurd rfl (hi.pool.no ha _ h1)
    | true =>
      have h3 := hi.pool.yes ha
      have h4 := hi.cache.counted
      have e : x = r.info.totalCounted := by
        have hu := hi.pool.sorted.uniq
        have := hu.eq (x := ⟨c, x⟩) (y := ⟨c, r.info.totalCounted⟩) h1 h3 rfl
        exact congrArg Bond.amount this
      refine ⟨r, hr, ?_, ?_, h2⟩
      · unfold Info.isActive at ha
        cases hs : r.info.status with
        | active => rfl
        | idle => rw [hs] at ha; cases ha
        | leaving w => rw [hs] at ha; cases ha
      · rw [e]; exact h4

theorem pool_owner_eligible {P : Par} {s : St} (h : Inv P s) {n : Nat} {b : Bond} (hb : b ∈ chosen s n) : Eligible s b.owner b.amount := by
  obtain ⟨h1, h2⟩ := chosen_mem s n hb
  exact (eligible_iff h).2 ⟨h1, h2⟩

theorem Eligible.functional {s : St} {c x y : Nat} (h : Eligible s c x) (g : Eligible s c y) : x = y := by
  obtain ⟨r, h1, _, h2, _⟩ := h
  obtain ⟨r', g1, _, g2, _⟩ := g
  rw [h1] at g1
  injection g1 with g1
  subst g1
  rw [h2, g2]

/-- The candidates chosen by the code are a best choice. -/
theorem topCandidates_best {P : Par} {s : St} (h : Inv P s) (n : Nat) : BestChoice s n (topCandidates s n) := by
  refine ⟨topCandidates_length s n, (topCandidates_sorted s n h.g.c.sorted).imp (fun e => Nat.ne_of_lt e), ?_, ?_⟩
  · intro c hc
    obtain ⟨b, hb, rfl⟩ := (topCandidates_mem s n).1 hc
    exact ⟨b.amount, pool_owner_eligible h hb⟩
  · intro c x hx hc
    obtain ⟨h1, h2⟩ := (eligible_iff h).1 hx
    have hn : (⟨c, x⟩ : Bond) ∉ chosen s n := fun hh => hc ((topCandidates_mem s n).2 ⟨_, hh, rfl⟩)
    obtain ⟨h3, h4⟩ := chosen_rest s n h1 h2 hn
    constructor
    · rw [topCandidates_eq, (stableSort_perm _ _).length_eq, List.length_map]; exact h3
    · intro d hd y hy
      obtain ⟨b, hb, rfl⟩ := (topCandidates_mem s n).1 hd
      rw [← (pool_owner_eligible h hb).functional hy]
      exact h4 b hb

theorem topCandidates_nil {P : Par} {s : St} (h : Inv P s) {n : Nat} :
    topCandidates s n = [] ↔ n = 0 ∨ ∀ c stake, ¬ Eligible s c stake := by
  constructor
  · intro e
    by_cases hx : ∀ c stake, ¬ Eligible s c stake
    · exact Or.inr hx
    · refine Or.inl ?_
      have hx : ∃ c stake, Eligible s c stake := by
        refine Classical.byContradiction (fun hh => hx (fun c x hc => hh ⟨c, x, hc⟩))
      obtain ⟨c, x, hc⟩ := hx
      have := (topCandidates_best h n).best c x hc (by rw [e]; intro hh; cases hh)
      rw [e] at this
      exact this.1.symm
  · rintro (rfl | hx)
    · have := topCandidates_length s 0
      exact List.eq_nil_of_length_eq_zero (by omega)
    · cases ht : topCandidates s n with
      | nil => rfl
      | cons c l =>
        obtain ⟨x, h1⟩ := (topCandidates_best h n).members c (by rw [ht]; exact List.mem_cons_self ..)
        exact absurd h1 (hx c x)

/-- What a block does to the era, the selected collators and the rest of the schedule. -/
theorem BlockSpec.schedule {E : EPar} {pub : Nat → Option Nat} {F F' : Full} {now author : Nat} (h : Core E F)
    (hs : BlockSpec E pub F F' now author) :
    (F'.led.era = F.led.era ∧ F'.first = F.first ∧ F'.selected = F.selected ∧ shouldUpdate F now = false ∧ F.force = false) ∨
    (F'.led.era = F.led.era + 1 ∧ F'.first = now ∧ (shouldUpdate F now = true ∨ F.force = true) ∧
      F'.selected = (if topCandidates F.led F.totalSelected = [] then F.selected else topCandidates F.led F.totalSelected)) := by
  cases hs with
  | same h1 h2 pay =>
    refine Or.inl ?_
    by_cases he : E.par.enabled = true
    · rw [if_pos he] at pay
      have hf := pay.frame
      exact ⟨hf.era, hf.first, hf.selected, h1, h2⟩
    · rw [if_neg he] at pay
      subst pay
      exact ⟨rfl, rfl, rfl, h1, h2⟩
  | next why F1 start pay =>
    refine Or.inr ?_
    have key : F1.led.era = F.led.era + 1 ∧ F1.first = now ∧
        F1.selected = (if topCandidates F.led F.totalSelected = [] then F.selected else topCandidates F.led F.totalSelected) := by
      obtain ⟨G1, G2, h1, h2, h3⟩ := start.ex
      have e0 : ∀ G : Full, G = (if shouldUpdate F now then noteAuthor F author else { noteAuthor F author with force := false }) →
          G.led = F.led ∧ G.totalSelected = F.totalSelected ∧ G.selected = F.selected := by
        intro G hG
        by_cases hw : shouldUpdate F now = true
        · rw [if_pos hw] at hG; subst hG; exact ⟨rfl, rfl, rfl⟩
        · rw [if_neg hw] at hG; subst hG; exact ⟨rfl, rfl, rfl⟩
      generalize hG : (if shouldUpdate F now then noteAuthor F author else { noteAuthor F author with force := false }) = G at *
      obtain ⟨e1, e2, e3⟩ := e0 G rfl
      have hf : PrepFrame G G1 := by rw [h1]; exact prepIf_frame ..
      subst h3
      refine ⟨by show G.led.era + 1 = _; rw [e1], rfl, ?_⟩
      show G2.selected = _
      have a1 : topCandidates G1.led G1.totalSelected = topCandidates F.led F.totalSelected := by
        rw [hf.led, hf.totalSelected, e1, e2]
      cases h2 with
      | kept hn hk => rw [a1] at hn; rw [if_pos hn, hk]; show G1.selected = _; rw [hf.selected, e3]
      | chosen hn l hk => rw [a1] at hn; rw [if_neg hn, hk]; show topCandidates G1.led G1.totalSelected = _; rw [a1]
    by_cases he : E.par.enabled = true
    · rw [if_pos he] at pay
      have hf := pay.frame
      exact ⟨hf.era.trans key.1, hf.first.trans key.2.1, why, hf.selected.trans key.2.2⟩
    · rw [if_neg he] at pay
      subst pay
      exact ⟨key.1, key.2.1, why, key.2.2⟩

/-- Steps other than blocks do not touch the schedule. -/
theorem eCall_other {E : EPar} (hE : E.Sane) {F F' : Full} (h : Core E F) {op : EOp} (ho : eCall E F op = some F')
    (hb : ∀ pub now a p, op ≠ .block pub now a p) : F'.led.era = F.led.era ∧ F'.first = F.first ∧ F'.selected = F.selected := by
  cases op with
  | block pub now author pick => exact absurd rfl (hb pub now author pick)
  | ledger op =>
    have ho : (if op.allowed E F.led then (call E.par F.led op).map (fun s => { F with led := s }) else none) = some F' := ho
    by_cases ha : op.allowed E F.led = true
    · rw [if_pos ha] at ho
      cases hc : call E.par F.led op with
      | none => rw [hc] at ho; cases ho
      | some s =>
        rw [hc] at ho
        have ho : some { F with led := s } = some F' := ho
        injection ho with ho
        subst ho
        exact ⟨(call_pot hE.par.ok hE.par.per.1 h.led ha hc).2, rfl, rfl⟩
    · rw [if_neg ha] at ho; cases ho
  | setTotalSelected v =>
    have ho : setTotalSelected E F v = some F' := ho
    unfold setTotalSelected at ho
    by_cases hc : E.minSelected ≤ v ∧ F.totalSelected ≠ v ∧ v ≤ F.length
    · rw [if_pos hc] at ho; injection ho with ho; subst ho; exact ⟨rfl, rfl, rfl⟩
    · rw [if_neg hc] at ho; cases ho
  | setBlocksPerEra v =>
    have ho : setBlocksPerEra E F v = some F' := ho
    unfold setBlocksPerEra at ho
    by_cases hc : E.minBlocks ≤ v ∧ F.length ≠ v ∧ F.totalSelected ≤ v
    · rw [if_pos hc] at ho; injection ho with ho; subst ho; exact ⟨rfl, rfl, rfl⟩
    · rw [if_neg hc] at ho; cases ho
  | forceEra =>
    have ho : some { F with force := true } = some F' := ho
    injection ho with ho; subst ho; exact ⟨rfl, rfl, rfl⟩
  | bridgeResult tx ok =>
    have ho : some (bridgeResult F tx ok) = some F' := ho
    injection ho with ho
    subst ho
    unfold bridgeResult
    cases F.published tx with
    | none => exact ⟨rfl, rfl, rfl⟩
    | some p => exact ⟨rfl, rfl, rfl⟩
  | growthLifted amount period =>
    have ho : some (payoutGrowth E F amount period).1 = some F' := ho
    injection ho with ho
    subst ho
    have hg := (payoutGrowth_ok E F amount period).1
    generalize payoutGrowth E F amount period = r at hg ⊢
    obtain ⟨G, b⟩ := r
    dsimp only at hg ⊢
    cases hg with
    | refused _ e => rw [e]; exact ⟨rfl, rfl, rfl⟩
    | failed _ f e => rw [e]; exact ⟨rfl, rfl, rfl⟩
    | done _ f e => rw [e]; exact ⟨rfl, rfl, rfl⟩

/-! ### No panic -/

/-- C75: the hooks at the start of a block never panic, whatever happened before. -/
theorem C75_block_hooks_never_panic (E : EPar) (hE : E.Sane) (F : Full) (hF : EReach E F) (pub : Nat → Option Nat)
    (now author pick : Nat) : (blockHooks E pub F now author pick).isSome = true := by
  obtain ⟨G, h1, _⟩ := blockHooks_ok (pub := pub) (hF.core hE) now author pick
  rw [h1]; rfl

/-- C75: nor does genesis, whatever candidates and nominators are configured. -/
theorem C75_genesis_never_panics (E : EPar) (hE : E.Sane) (delay minTotal minCollator : Nat) (free : Nat → Nat) (setup : List Op)
    (hm : E.par.minPer ≤ minTotal) (hn : Op.newEra ∉ setup) :
    (genesis E (run E.par (St.init delay minTotal minCollator free) setup)).isSome = true := by
  obtain ⟨G, h1, _⟩ := genesis_core (E := E)
    (run_inv hE.par.ok hE.par.per.1 (init_inv (delay := delay) (mc := minCollator) (free := free) hm) setup)
    (run_era E.par hE.par.ok hE.par.per.1 (init_inv hm) setup hn)
  rw [h1]; rfl

/-- The ledger inside is one that a history of ledger calls reaches, so that C41 to C47 hold of it. -/
theorem C75_ledger_is_reachable (E : EPar) (hE : E.Sane) (F : Full) (hF : EReach E F) : Reach E.par F.led := by
  obtain ⟨F0, ops, h0, rfl⟩ := hF
  have hr0 : Reach E.par F0.led := by
    have hc := h0.core hE
    obtain ⟨d, mt, mc, fr, setup, hm, hn, hg⟩ := h0
    have hi := run_inv hE.par.ok hE.par.per.1 (init_inv (delay := d) (mc := mc) (free := fr) hm) setup
    obtain ⟨G, h1, h2⟩ := selectTop_ok (E := E) (F := blank E (run E.par (St.init d mt mc fr) setup)) hi 1 (by intro c hc; cases hc)
    have : genesis E (run E.par (St.init d mt mc fr) setup) = some G := h1
    rw [this] at hg
    injection hg with hg
    subst hg
    rw [h2.frame.led]
    exact ⟨d, mt, mc, fr, setup, hm, rfl⟩
  have hc0 := h0.core hE
  have key : ∀ (ops : List EOp) (F : Full), Core E F → Reach E.par F.led → Reach E.par (eRun E F ops).led := by
    intro ops
    induction ops with
    | nil => intro F _ h; exact h
    | cons op ops ih =>
      intro F hc hr
      refine ih (eStep E F op) (eStep_core hE.par.ok hE.par.per.1 hE.delay hE.blocks hc op) ?_
      have hl : LedRun E.par F.led (eStep E F op).led := by
        unfold eStep
        cases ho : eCall E F op with
        | none => exact LedRun.refl _ _
        | some F' =>
          show LedRun E.par F.led F'.led
          cases op with
          | block pub now author pick =>
            cases blockHooks_spec hc ho with
            | same _ _ pay =>
              by_cases he : E.par.enabled = true
              · rw [if_pos he] at pay; exact pay.led
              · rw [if_neg he] at pay; rw [pay]; exact LedRun.refl _ _
            | next why F1 start pay =>
              have h1 : LedRun E.par F.led F1.led := by
                obtain ⟨G1, G2, h1, h2, h3⟩ := start.ex
                have e0 : (if shouldUpdate F now then noteAuthor F author else { noteAuthor F author with force := false }).led = F.led := by
                  by_cases hw : shouldUpdate F now = true
                  · rw [if_pos hw]; rfl
                  · rw [if_neg hw]; rfl
                generalize (if shouldUpdate F now then noteAuthor F author else { noteAuthor F author with force := false }) = G at *
                have hf : PrepFrame G G1 := by rw [h1]; exact prepIf_frame ..
                rw [h3]
                show LedRun E.par F.led { G2.led with era := G.led.era + 1 }
                rw [h2.frame.led, hf.led, e0]
                exact LedRun.era _ _
              by_cases he : E.par.enabled = true
              · rw [if_pos he] at pay; exact h1.trans pay.led
              · rw [if_neg he] at pay; rw [pay]; exact h1
          | ledger op =>
            have ho : (if op.allowed E F.led then (call E.par F.led op).map (fun s => { F with led := s }) else none) = some F' := ho
            by_cases ha : op.allowed E F.led = true
            · rw [if_pos ha] at ho
              cases hcall : call E.par F.led op with
              | none => rw [hcall] at ho; cases ho
              | some s =>
                rw [hcall] at ho
                have ho : some { F with led := s } = some F' := ho
                injection ho with ho
                subst ho
                exact LedRun.ofCall hcall
            · rw [if_neg ha] at ho; cases ho
          | setTotalSelected v =>
            have ho : setTotalSelected E F v = some F' := ho
            unfold setTotalSelected at ho
            by_cases hc : E.minSelected ≤ v ∧ F.totalSelected ≠ v ∧ v ≤ F.length
            · rw [if_pos hc] at ho; injection ho with ho; subst ho; exact LedRun.refl _ _
            · rw [if_neg hc] at ho; cases ho
          | setBlocksPerEra v =>
            have ho : setBlocksPerEra E F v = some F' := ho
            unfold setBlocksPerEra at ho
            by_cases hc : E.minBlocks ≤ v ∧ F.length ≠ v ∧ F.totalSelected ≤ v
            · rw [if_pos hc] at ho; injection ho with ho; subst ho; exact LedRun.refl _ _
            · rw [if_neg hc] at ho; cases ho
          | forceEra =>
            have ho : some { F with force := true } = some F' := ho
            injection ho with ho; subst ho; exact LedRun.refl _ _
          | bridgeResult tx ok =>
            have ho : some (bridgeResult F tx ok) = some F' := ho
            injection ho with ho
            subst ho
            unfold bridgeResult
            cases F.published tx with
            | none => exact LedRun.refl _ _
            | some p => exact LedRun.refl _ _
          | growthLifted amount period =>
            have ho : some (payoutGrowth E F amount period).1 = some F' := ho
            injection ho with ho
            subst ho
            exact (payoutGrowth_ok E F amount period).2
      obtain ⟨d, mt, mc, fr, ops0, hm, e⟩ := hr
      obtain ⟨l, e2⟩ := hl
      exact ⟨d, mt, mc, fr, ops0 ++ l, hm, by rw [e2, e, run_append]⟩
  exact key ops F0 hc0 hr0

/-! ### C49 -/

/-- C49: what is locked for payouts never exceeds what the pot can pay. -/
theorem C49_locked_payouts_are_backed (E : EPar) (hE : E.Sane) (F : Full) (hF : EReach E F) :
    F.locked ≤ F.led.free E.pot - E.ed := (hF.core hE).pot

/-- C49: when an era starts, for the era of `payDelay` eras ago (if it has blocks) exactly the unlocked rest of the pot is set aside,
and then everything in the pot is locked. -/
theorem C49_an_era_locks_exactly_the_rest (E : EPar) (hE : E.Sane) (hen : E.par.enabled = true) (F F' : Full) (hF : EReach E F)
    (pub : Nat → Option Nat) (now : Nat) (ho : startEra E pub F now = some F') (hl : E.payDelay < F.led.era + 1)
    (hp : F.points (F.led.era + 1 - E.payDelay) ≠ 0) :
    let e := F.led.era + 1 - E.payDelay
    F'.delayed e = some ((F.led.free E.pot - E.ed) - F.locked) ∧ F'.aside e = (F.led.free E.pot - E.ed) - F.locked ∧
    F'.led.free = F.led.free ∧ F'.locked = F.led.free E.pot - E.ed ∧
    (∀ d, d ≠ e → F'.delayed d = F.delayed d ∧ F'.aside d = F.aside d) := by
  have hc := hF.core hE
  obtain ⟨F1, F2, h1, h2, h3⟩ := (startEra_spec hc.led hc.sel ho).ex
  rw [if_pos hen] at h1
  have hs := h2.frame
  have hpp := preparePayouts_ok E pub F (F.led.era + 1)
  rw [← h1] at hpp
  dsimp only
  cases hpp with
  | idle _ why => rcases why with w | w
                  · omega
                  · exact absurd w hp
  | set _ _ f hk hd ha =>
    have hpot := hc.pot
    subst h3
    unfold potFunds at hk hd ha hpot
    refine ⟨?_, ?_, ?_, ?_, ?_⟩
    · show F2.delayed _ = _; rw [hs.delayed, hd, upd_same]
    · show F2.aside _ = _; rw [hs.aside, ha, upd_same]
    · show F2.led.free = _; rw [hs.led, f.led]
    · show F2.locked = _; rw [hs.locked, hk]; omega
    · intro d hne
      constructor
      · show F2.delayed _ = _; rw [hs.delayed, hd, upd_ne _ _ hne]
      · show F2.aside _ = _; rw [hs.aside, ha, upd_ne _ _ hne]

/-- C49: otherwise nothing is locked. -/
theorem C49_nothing_is_locked_otherwise (E : EPar) (hE : E.Sane) (F F' : Full) (hF : EReach E F) (pub : Nat → Option Nat) (now : Nat)
    (ho : startEra E pub F now = some F')
    (h : E.par.enabled = false ∨ F.led.era + 1 ≤ E.payDelay ∨ F.points (F.led.era + 1 - E.payDelay) = 0) :
    F'.locked = F.locked ∧ F'.delayed = F.delayed ∧ F'.aside = F.aside := by
  have hc := hF.core hE
  obtain ⟨F1, F2, h1, h2, h3⟩ := (startEra_spec hc.led hc.sel ho).ex
  have hs := h2.frame
  have e : F1 = F := by
    by_cases hen : E.par.enabled = true
    · rw [if_pos hen] at h1
      have hpp := preparePayouts_ok E pub F (F.led.era + 1)
      rw [← h1] at hpp
      cases hpp with
      | idle e _ => exact e
      | set a b =>
        rcases h with h | h | h
        · rw [hen] at h; cases h
        · omega
        · exact absurd h b
    · rw [if_neg hen] at h1; exact h1
  subst e
  subst h3
  exact ⟨hs.locked, hs.delayed, hs.aside⟩

/-! ### C51 -/

/-- C51: when an era starts, the selected collators are a best choice of at most `TotalSelected` of the eligible candidates; if there
is none (or none may be selected) the old set stays. -/
theorem C51_selected_are_the_top_backed (E : EPar) (hE : E.Sane) (F F' : Full) (hF : EReach E F) (pub : Nat → Option Nat)
    (now author pick : Nat) (ho : blockHooks E pub F now author pick = some F') (hera : F'.led.era ≠ F.led.era) :
    ((F.totalSelected = 0 ∨ ∀ c stake, ¬ Eligible F.led c stake) → F'.selected = F.selected) ∧
    (0 < F.totalSelected → (∃ c stake, Eligible F.led c stake) → BestChoice F.led F.totalSelected F'.selected ∧ F'.selected ≠ []) := by
  have hc := hF.core hE
  rcases (blockHooks_spec hc ho).schedule hc with ⟨e, _⟩ | ⟨_, _, _, hsel⟩
  · exact absurd e hera
  · constructor
    · intro h
      rw [hsel, if_pos ((topCandidates_nil hc.led).2 h)]
    · rintro h1 ⟨c, x, hx⟩
      have hne : topCandidates F.led F.totalSelected ≠ [] := by
        intro e
        rcases (topCandidates_nil hc.led).1 e with e | e
        · omega
        · exact e c x hx
      rw [hsel, if_neg hne]
      exact ⟨topCandidates_best hc.led _, hne⟩

/-- C51: nothing but a new era changes the selected collators. -/
theorem C51_only_a_new_era_changes_the_selection (E : EPar) (hE : E.Sane) (F : Full) (hF : EReach E F) (op : EOp)
    (hera : (eStep E F op).led.era = F.led.era) : (eStep E F op).selected = F.selected := by
  have hc := hF.core hE
  unfold eStep at *
  cases ho : eCall E F op with
  | none => rfl
  | some F' =>
    rw [ho] at hera
    show F'.selected = F.selected
    by_cases hb : ∀ pub now a p, op ≠ .block pub now a p
    · exact (eCall_other hE hc ho hb).2.2
    · have hb : ∃ pub now a p, op = .block pub now a p := by
        refine Classical.byContradiction (fun hh => hb (fun pub now a p e => hh ⟨pub, now, a, p, e⟩))
      obtain ⟨pub, now, a, p, rfl⟩ := hb
      rcases (blockHooks_spec hc ho).schedule hc with ⟨_, _, h, _⟩ | ⟨e, _⟩
      · exact h
      · have hera : F'.led.era = F.led.era := hera
        omega

/-- C51: the selected collators are also chosen like this at genesis. -/
theorem C51_genesis_selection (E : EPar) (hE : E.Sane) (F : Full) (hF : EStart E F) (h0 : 0 < E.minSelected)
    (hex : ∃ c stake, Eligible F.led c stake) : BestChoice F.led E.minSelected F.selected ∧ F.selected ≠ [] := by
  have hc := hF.core hE
  obtain ⟨d, mt, mc, fr, setup, hm, hn, hg⟩ := hF
  have hi := run_inv hE.par.ok hE.par.per.1 (init_inv (delay := d) (mc := mc) (free := fr) hm) setup
  obtain ⟨G, h1, h2⟩ := selectTop_ok (E := E) (F := blank E (run E.par (St.init d mt mc fr) setup)) hi 1 (by intro c hc; cases hc)
  have : genesis E (run E.par (St.init d mt mc fr) setup) = some G := h1
  rw [this] at hg
  injection hg with hg
  subst hg
  have hled : G.led = run E.par (St.init d mt mc fr) setup := h2.frame.led
  rw [hled] at hex ⊢
  obtain ⟨c, x, hx⟩ := hex
  have hne : topCandidates (run E.par (St.init d mt mc fr) setup) E.minSelected ≠ [] := by
    intro e
    rcases (topCandidates_nil hi).1 e with e | e
    · omega
    · exact e c x hx
  cases h2 with
  | kept hn => exact absurd hn hne
  | chosen _ l hk =>
    rw [hk]
    exact ⟨topCandidates_best hi _, hne⟩

/-! ### C52 -/

/-- C52: a step changes the era only in the hooks of a block, by one, and only if the length has elapsed or an era was forced. -/
theorem C52_eras_advance_by_one_and_when_due (E : EPar) (hE : E.Sane) (F : Full) (hF : EReach E F) (op : EOp)
    (hera : (eStep E F op).led.era ≠ F.led.era) :
    ∃ pub now author pick, op = .block pub now author pick ∧ (eStep E F op).led.era = F.led.era + 1 ∧ (eStep E F op).first = now ∧
      (F.length ≤ now - F.first ∨ F.force = true) := by
  have hc := hF.core hE
  unfold eStep at *
  cases ho : eCall E F op with
  | none => rw [ho] at hera; exact absurd rfl hera
  | some F' =>
    rw [ho] at hera
    by_cases hb : ∀ pub now a p, op ≠ .block pub now a p
    · exact absurd (eCall_other hE hc ho hb).1 hera
    · have hb : ∃ pub now a p, op = .block pub now a p := by
        refine Classical.byContradiction (fun hh => hb (fun pub now a p e => hh ⟨pub, now, a, p, e⟩))
      obtain ⟨pub, now, a, p, rfl⟩ := hb
      rcases (blockHooks_spec hc ho).schedule hc with ⟨e, _⟩ | ⟨e1, e2, e3, _⟩
      · exact absurd e hera
      · refine ⟨pub, now, a, p, rfl, e1, e2, ?_⟩
        rcases e3 with e | e
        · exact Or.inl (of_decide_eq_true e)
        · exact Or.inr e

/-- C52: and a block at which the length has elapsed does start an era. -/
theorem C52_a_due_era_starts (E : EPar) (hE : E.Sane) (F : Full) (hF : EReach E F) (pub : Nat → Option Nat) (now author pick : Nat)
    (h : F.length ≤ now - F.first ∨ F.force = true) :
    (eStep E F (.block pub now author pick)).led.era = F.led.era + 1 ∧ (eStep E F (.block pub now author pick)).first = now := by
  have hc := hF.core hE
  obtain ⟨F', h1, h2⟩ := blockHooks_ok (pub := pub) hc now author pick
  have e : eStep E F (.block pub now author pick) = F' := by
    show (blockHooks E pub F now author pick).getD F = F'
    rw [h1]; rfl
  rw [e]
  rcases h2.schedule hc with ⟨_, _, _, e1, e2⟩ | ⟨e1, e2, _⟩
  · exfalso
    rcases h with h | h
    · have : shouldUpdate F now = true := decide_eq_true h
      rw [this] at e1; cases e1
    · rw [h] at e2; cases e2
  · exact ⟨e1, e2⟩

theorem eraStarts_sublist (E : EPar) (hE : E.Sane) (ops : List EOp) (F : Full) (hF : EReach E F) :
    (eraStarts E F ops).Sublist (blockNumbers ops) := by
  induction ops generalizing F with
  | nil => exact List.Sublist.refl _
  | cons op ops ih =>
    have ih' := ih (eStep E F op) (hF.step op)
    unfold eraStarts
    by_cases h : (eStep E F op).led.era ≠ F.led.era
    · rw [if_pos h]
      obtain ⟨pub, now, a, p, rfl, _, h2, _⟩ := C52_eras_advance_by_one_and_when_due E hE F hF op h
      rw [h2]
      show (now :: _).Sublist (now :: blockNumbers ops)
      exact ih'.cons_cons now
    · rw [if_neg h]
      refine ih'.trans ?_
      show (blockNumbers ops).Sublist (blockNumbers ([op] ++ ops))
      unfold blockNumbers
      rw [List.filterMap_append]
      exact List.sublist_append_right _ _

/-- C52: if block numbers increase, so do the first blocks of the eras. -/
theorem C52_era_starts_increase (E : EPar) (hE : E.Sane) (F : Full) (hF : EReach E F) (ops : List EOp)
    (hinc : (blockNumbers ops).Pairwise (· < ·)) : (eraStarts E F ops).Pairwise (· < ·) :=
  hinc.sublist (eraStarts_sublist E hE ops F hF)

/-! ### A concrete case -/

/-- Two candidates may be selected, an era has at least three blocks, payouts are two eras late; account 90 is the pot. -/
def smallE : EPar := ⟨smallPar, 2, 3, 2, 2, 10, true, 0, 90, 91⟩

/-- Three candidates, of which the third has the least stake. -/
def smallSetup : List Op := [.join 1 10 10 true, .join 2 30 10 true, .join 3 20 10 true, .nominate 4 1 50 10 10]

/-- The ledger at genesis. -/
def smallLed : St := run smallPar (St.init 2 1 5 (fun a => if a = 90 then 0 else 1000)) smallSetup

/-- The state at genesis. -/
def small0 : Full := (genesis smallE smallLed).getD (blank smallE smallLed)

/-- A block without publication. -/
def plain (now author : Nat) : EOp := .block (fun p => some (100 + p)) now author 0

/-- Six eras' worth of blocks with rewards arriving in the pot. -/
def smallHistory : List EOp :=
  [plain 1 1, plain 2 2, plain 3 1, plain 4 2, plain 5 1, .ledger (.setFree 90 100), plain 6 2, plain 7 1, plain 8 2, plain 9 1, plain 10 2,
   .ledger (.goOffline 2), plain 11 1, .ledger (.setFree 90 1000), plain 12 2, plain 13 1, plain 14 2, plain 15 1]

example : smallE.Sane := ⟨⟨by decide, by decide, by decide, by decide⟩, by decide, by decide⟩

theorem small0_start : EStart smallE small0 := by
  have h : (genesis smallE smallLed).isSome = true :=
    C75_genesis_never_panics smallE ⟨⟨by decide, by decide, by decide, by decide⟩, by decide, by decide⟩ 2 1 5 _ smallSetup (by decide)
      (by simp [smallSetup])
  refine ⟨2, 1, 5, fun a => if a = 90 then 0 else 1000, smallSetup, by decide, by simp [smallSetup], ?_⟩
  obtain ⟨G, hG⟩ := Option.isSome_iff_exists.1 h
  unfold small0
  rw [hG]
  exact hG

theorem small_reach : EReach smallE (eRun smallE small0 smallHistory) := ⟨small0, smallHistory, small0_start, rfl⟩

/-- Candidates 1 (10 + 50) and 2 (30) are chosen at genesis; after candidate 2 went offline the third takes its place. -/
example : small0.selected = [1, 2] ∧ (eRun smallE small0 smallHistory).selected = [1, 3] ∧ (eRun smallE small0 smallHistory).led.era = 4 := by
  decide +kernel

/-- The eras start five blocks apart, and 100 and then 1000 were set aside for the first two eras. -/
example : eraStarts smallE small0 smallHistory = [5, 10, 15] ∧
    (eRun smallE small0 smallHistory).aside 1 = 100 ∧
    (eRun smallE small0 smallHistory).aside 2 = 1000 ∧ (eRun smallE small0 smallHistory).locked = 400 := by
  decide +kernel

end Verif.Staking
