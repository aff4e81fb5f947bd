import Verif.Lemmas.StakingEra4

/-! # All invariants of eras and payouts hold after every step -/

namespace Verif.Staking

variable {E : EPar} {F F' : Full} {pub : Nat → Option Nat} {P : Par} {s s' : St}

/-! ### Growth over a block -/

theorem Pay.ptsAt (p : Pay E F) : E.payDelay < F.led.era + 1 →
    valSum (F.awarded (F.led.era + 1 - E.payDelay)) = F.points (F.led.era + 1 - E.payDelay) := by
  intro h
  exact p.pts _ (by omega)

theorem StartSpec.grow {now : Nat} (hs : StartSpec E pub F F' now) (p : Pay E F) (g : Grow F) : Grow F' := by
  obtain ⟨F1, F2, h1, h2, h3⟩ := hs.ex
  have hg := h2.frame
  have k : Grow F1 := by
    rw [h1]
    by_cases he : E.par.enabled = true
    · rw [if_pos he]; exact preparePayouts_grow g p.ptsAt (p.nodup _)
    · rw [if_neg he]; exact g
  subst h3
  exact Grow.same (F := F1) ⟨hg.growth, hg.gpIndex, hg.processed, hg.sent, hg.payouts⟩ k

theorem HandleSpec.grow {e : Nat} (hs : HandleSpec E F F' e) (g : Grow F) : Grow F' := by
  have hf := hs.frame
  exact Grow.same (F := F) ⟨hf.growth, hf.gpIndex, hf.processed, hf.sent, hf.payouts⟩ g

/-- All invariants but the sums. -/
structure All (E : EPar) (F : Full) : Prop where
  core : Core E F
  pay : Pay E F
  grow : Grow F

theorem All.note (hd : 1 ≤ E.payDelay) (h : All E F) (a : Nat) : All E (noteAuthor F a) :=
  ⟨h.core.note a, h.pay.note hd a, Grow.same (F := F) ⟨rfl, rfl, rfl, rfl, rfl⟩ h.grow⟩

theorem All.unforce (h : All E F) : All E { F with force := false } :=
  ⟨⟨h.core.led, h.core.era, h.core.len, h.core.sel, h.core.pot⟩,
   Pay.same (F := F) ⟨rfl, rfl, rfl, rfl, rfl, rfl, rfl, rfl, rfl, rfl⟩ h.pay, Grow.same (F := F) ⟨rfl, rfl, rfl, rfl, rfl⟩ h.grow⟩

theorem Sums.unforce (h : Sums F) : Sums { F with force := false } :=
  Sums.same (F := F) ⟨rfl, rfl, rfl, rfl, rfl, rfl, rfl, rfl, rfl, rfl⟩ h

theorem StartSpec.all' {now : Nat} (hs : StartSpec E pub F F' now) (h : All E F) : All E F' :=
  ⟨StartSpec.core h.core hs, StartSpec.pay h.core hs h.pay, hs.grow h.pay h.grow⟩

/-- What holds of the state in which the era is started. -/
theorem All.start (hd : 1 ≤ E.payDelay) (h : All E F) (author now : Nat) :
    All E (if shouldUpdate F now then noteAuthor F author else { noteAuthor F author with force := false }) := by
  by_cases hw : shouldUpdate F now = true
  · rw [if_pos hw]; exact h.note hd author
  · rw [if_neg hw]; exact (h.note hd author).unforce

theorem Sums.start (hd : 1 ≤ E.payDelay) (h : All E F) (g : Sums F) (author now : Nat) :
    Sums (if shouldUpdate F now then noteAuthor F author else { noteAuthor F author with force := false }) := by
  by_cases hw : shouldUpdate F now = true
  · rw [if_pos hw]; exact g.note hd h.pay author
  · rw [if_neg hw]; exact (g.note hd h.pay author).unforce

theorem start_era_eq (F : Full) (author now : Nat) :
    (if shouldUpdate F now then noteAuthor F author else { noteAuthor F author with force := false }).led = F.led := by
  by_cases hw : shouldUpdate F now = true
  · rw [if_pos hw]; rfl
  · rw [if_neg hw]; rfl

theorem BlockSpec.all' (hP : E.par.Ok) (hmax : 1 ≤ E.par.maxPer) (hd : 1 ≤ E.payDelay) {now author : Nat} (h : All E F)
    (hs : BlockSpec E pub F F' now author) : All E F' := by
  have hc := hs.core hP hmax hd h.core
  suffices h : Pay E F' ∧ Grow F' from ⟨hc, h.1, h.2⟩
  cases hs with
  | same _ _ pay =>
    have hn := h.note hd author
    by_cases he : E.par.enabled = true
    · rw [if_pos he] at pay; exact ⟨pay.pay rfl hn.pay, pay.grow hn.grow⟩
    · rw [if_neg he] at pay; subst pay; exact ⟨hn.pay, hn.grow⟩
  | next why F1 start pay =>
    have h1 := start.all' (h.start hd author now)
    have he1 : F1.led.era = F.led.era + 1 := by rw [start.era.1, start_era_eq]
    by_cases he : E.par.enabled = true
    · rw [if_pos he] at pay; exact ⟨pay.pay he1.symm h1.pay, pay.grow h1.grow⟩
    · rw [if_neg he] at pay; subst pay; exact ⟨h1.pay, h1.grow⟩

theorem BlockSpec.sums (hd : 1 ≤ E.payDelay) {now author : Nat} (h : All E F) (g : Sums F)
    (hs : BlockSpec E pub F F' now author) : Sums F' := by
  cases hs with
  | same _ _ pay =>
    have hn := h.note hd author
    have gn := g.note hd h.pay author
    by_cases he : E.par.enabled = true
    · rw [if_pos he] at pay; exact pay.sums hd hn.pay gn
    · rw [if_neg he] at pay; subst pay; exact gn
  | next why F1 start pay =>
    have h0 := h.start hd author now
    have h1 := start.all' h0
    have g1 := start.sums hd h0.core h0.pay (g.start hd h author now)
    by_cases he : E.par.enabled = true
    · rw [if_pos he] at pay; exact pay.sums hd h1.pay g1
    · rw [if_neg he] at pay; subst pay; exact g1

/-! ### The ledger -/

theorem Pay.led (p : Pay E F) (s : St) (he : s.era = F.led.era) : Pay E { F with led := s } := by
  refine ⟨p.nodup, ?_, ?_, ?_, p.out, p.once, p.logged, p.snap, p.payees, p.live⟩
  · intro e; show s.era < _ → _; rw [he]; exact p.pts e
  · intro e; show s.era < _ → _; rw [he]; exact p.del e
  · intro x hx; show _ ≤ s.era; rw [he]; exact p.late x hx

theorem Sums.led (g : Sums F) (s : St) (hb : ∀ c r, s.cands c = some r → 0 < r.info.bond) (hm : 1 ≤ s.minCollator) :
    Sums { F with led := s } := ⟨hb, hm, g.snap, g.now, g.all⟩

/-- Bonds stay positive. -/
theorem call_bonds (hP : P.Ok) (hmax : 1 ≤ P.maxPer) {op : Op} (h : Inv P s) (ho : call P s op = some s')
    (hb : ∀ c r, s.cands c = some r → 0 < r.info.bond) (hm : 1 ≤ s.minCollator) (hop : op ≠ .setMinCollator 0) :
    (∀ c r, s'.cands c = some r → 0 < r.info.bond) ∧ 1 ≤ s'.minCollator := by
  have hs := call_ok hP hmax h ho
  constructor
  · intro c r' hr
    cases hs.cand c with
    | absent _ h' => rw [h'] at hr; cases hr
    | same r k h1 h' e => rw [h'] at hr; injection hr with hr; subst hr; rw [e]; exact hb c r h1
    | joined bond hint reg who h0 k h' e1 e2 e3 e4 =>
      rw [h'] at hr; injection hr with hr; subst hr
      omega
    | status who r k h1 h' e => rw [h'] at hr; injection hr with hr; subst hr; rw [e]; exact hb c r h1
    | leaving hint who r k h1 h' e => rw [h'] at hr; injection hr with hr; subst hr; rw [e]; exact hb c r h1
    | left hint who r w h1 h' => rw [h'] at hr; cases hr
    | more k who r k' h1 h' e =>
      rw [h'] at hr; injection hr with hr; subst hr
      have := hb c r h1; omega
    | unbondScheduled k who r k' h1 h' e => rw [h'] at hr; injection hr with hr; subst hr; rw [e]; exact hb c r h1
    | unbondExecuted who r k' q h1 h' was due e =>
      rw [h'] at hr; injection hr with hr; subst hr
      have := h.q c r q h1 was
      omega
    | unbondCancelled who r k' h1 h' e => rw [h'] at hr; injection hr with hr; subst hr; rw [e]; exact hb c r h1
  · rcases hs.minCollator with e | ⟨v, e1, e2⟩
    · rw [e]; exact hm
    · rw [e2]
      subst e1
      rcases Nat.eq_zero_or_pos v with rfl | hv
      · exact absurd rfl hop
      · exact hv

theorem run_bonds (hP : P.Ok) (hmax : 1 ≤ P.maxPer) (h : Inv P s) (ops : List Op)
    (hb : ∀ c r, s.cands c = some r → 0 < r.info.bond) (hm : 1 ≤ s.minCollator) (hop : Op.setMinCollator 0 ∉ ops) :
    (∀ c r, (run P s ops).cands c = some r → 0 < r.info.bond) ∧ 1 ≤ (run P s ops).minCollator := by
  induction ops generalizing s with
  | nil => exact ⟨hb, hm⟩
  | cons op ops ih =>
    have h1 := step_ok hP hmax h op
    have key : (∀ c r, (step P s op).cands c = some r → 0 < r.info.bond) ∧ 1 ≤ (step P s op).minCollator := by
      unfold step
      cases ho : call P s op with
      | none => exact ⟨hb, hm⟩
      | some s' => exact call_bonds hP hmax h ho hb hm (fun e => hop (by rw [e]; exact List.mem_cons_self ..))
    exact ih h1.inv key.1 key.2 (fun hh => hop (List.mem_cons_of_mem _ hh))

/-! ### All steps -/

theorem eCall_all (hP : E.par.Ok) (hmax : 1 ≤ E.par.maxPer) (hd : 1 ≤ E.payDelay) (hb : 1 ≤ E.minBlocks) (h : All E F) {op : EOp}
    (ho : eCall E F op = some F') :
    All E F' ∧ (op ≠ .ledger (.setMinCollator 0) → Sums F → Sums F') := by
  have hcore := eCall_core hP hmax hd hb h.core ho
  cases op with
  | block pub now author pick =>
    have hs := blockHooks_spec h.core ho
    exact ⟨hs.all' hP hmax hd h, fun _ g => hs.sums hd h g⟩
  | ledger op =>
    have ho : (if op.allowed E F.led then (call E.par F.led op).map (fun s => { F with led := s }) else none) = some F' := ho
    by_cases ha : op.allowed E F.led = true
    · rw [if_pos ha] at ho
      cases hc : call E.par F.led op with
      | none => rw [hc] at ho; cases ho
      | some s =>
        rw [hc] at ho
        have ho : some { F with led := s } = some F' := ho
        injection ho with ho
        subst ho
        refine ⟨⟨hcore, h.pay.led s (call_pot hP hmax h.core.led ha hc).2, Grow.same (F := F) ⟨rfl, rfl, rfl, rfl, rfl⟩ h.grow⟩, ?_⟩
        intro hne g
        obtain ⟨b1, b2⟩ := call_bonds hP hmax h.core.led hc g.bond g.min (fun e => hne (by rw [e]))
        exact g.led s b1 b2
    · rw [if_neg ha] at ho; cases ho
  | setTotalSelected v =>
    have ho : setTotalSelected E F v = some F' := ho
    unfold setTotalSelected at ho
    by_cases hc : E.minSelected ≤ v ∧ F.totalSelected ≠ v ∧ v ≤ F.length
    · rw [if_pos hc] at ho; injection ho with ho; subst ho
      exact ⟨⟨hcore, Pay.same (F := F) ⟨rfl, rfl, rfl, rfl, rfl, rfl, rfl, rfl, rfl, rfl⟩ h.pay,
        Grow.same (F := F) ⟨rfl, rfl, rfl, rfl, rfl⟩ h.grow⟩, fun _ g => Sums.same (F := F) ⟨rfl, rfl, rfl, rfl, rfl, rfl, rfl, rfl, rfl, rfl⟩ g⟩
    · rw [if_neg hc] at ho; cases ho
  | setBlocksPerEra v =>
    have ho : setBlocksPerEra E F v = some F' := ho
    unfold setBlocksPerEra at ho
    by_cases hc : E.minBlocks ≤ v ∧ F.length ≠ v ∧ F.totalSelected ≤ v
    · rw [if_pos hc] at ho; injection ho with ho; subst ho
      exact ⟨⟨hcore, Pay.same (F := F) ⟨rfl, rfl, rfl, rfl, rfl, rfl, rfl, rfl, rfl, rfl⟩ h.pay,
        Grow.same (F := F) ⟨rfl, rfl, rfl, rfl, rfl⟩ h.grow⟩, fun _ g => Sums.same (F := F) ⟨rfl, rfl, rfl, rfl, rfl, rfl, rfl, rfl, rfl, rfl⟩ g⟩
    · rw [if_neg hc] at ho; cases ho
  | forceEra =>
    have ho : some { F with force := true } = some F' := ho
    injection ho with ho; subst ho
    exact ⟨⟨hcore, Pay.same (F := F) ⟨rfl, rfl, rfl, rfl, rfl, rfl, rfl, rfl, rfl, rfl⟩ h.pay,
      Grow.same (F := F) ⟨rfl, rfl, rfl, rfl, rfl⟩ h.grow⟩, fun _ g => Sums.same (F := F) ⟨rfl, rfl, rfl, rfl, rfl, rfl, rfl, rfl, rfl, rfl⟩ g⟩
  | bridgeResult tx ok =>
    have ho : some (bridgeResult F tx ok) = some F' := ho
    injection ho with ho
    subst ho
    have hp : PaySame F (bridgeResult F tx ok) := by
      unfold bridgeResult
      cases F.published tx with
      | none => exact ⟨rfl, rfl, rfl, rfl, rfl, rfl, rfl, rfl, rfl, rfl⟩
      | some p => exact ⟨rfl, rfl, rfl, rfl, rfl, rfl, rfl, rfl, rfl, rfl⟩
    exact ⟨⟨hcore, h.pay.same hp, bridgeResult_grow h.grow tx ok⟩, fun _ g => g.same hp⟩
  | growthLifted amount period =>
    have ho : some (payoutGrowth E F amount period).1 = some F' := ho
    injection ho with ho
    subst ho
    have hg := (payoutGrowth_ok E F amount period).1
    have hp : PaySame F (payoutGrowth E F amount period).1 := by
      generalize payoutGrowth E F amount period = r at hg ⊢
      obtain ⟨G, b⟩ := r
      dsimp only at hg ⊢
      cases hg with
      | refused _ e => rw [e]; exact ⟨rfl, rfl, rfl, rfl, rfl, rfl, rfl, rfl, rfl, rfl⟩
      | failed _ f e => rw [e]; exact ⟨rfl, rfl, rfl, rfl, rfl, rfl, rfl, rfl, rfl, rfl⟩
      | done _ f e => rw [e]; exact ⟨rfl, rfl, rfl, rfl, rfl, rfl, rfl, rfl, rfl, rfl⟩
    exact ⟨⟨hcore, h.pay.same hp, hg.grow h.grow⟩, fun _ g => g.same hp⟩

theorem eStep_all (hP : E.par.Ok) (hmax : 1 ≤ E.par.maxPer) (hd : 1 ≤ E.payDelay) (hb : 1 ≤ E.minBlocks) (h : All E F) (op : EOp) :
    All E (eStep E F op) ∧ (op ≠ .ledger (.setMinCollator 0) → Sums F → Sums (eStep E F op)) := by
  unfold eStep
  cases ho : eCall E F op with
  | none => exact ⟨h, fun _ g => g⟩
  | some F' => exact eCall_all hP hmax hd hb h ho

theorem eRun_all (hP : E.par.Ok) (hmax : 1 ≤ E.par.maxPer) (hd : 1 ≤ E.payDelay) (hb : 1 ≤ E.minBlocks) (h : All E F) (ops : List EOp) :
    All E (eRun E F ops) ∧ (EOp.ledger (.setMinCollator 0) ∉ ops → Sums F → Sums (eRun E F ops)) := by
  induction ops generalizing F with
  | nil => exact ⟨h, fun _ g => g⟩
  | cons op ops ih =>
    have h1 := eStep_all hP hmax hd hb h op
    have h2 := ih h1.1
    refine ⟨h2.1, fun hn g => ?_⟩
    exact h2.2 (fun hh => hn (List.mem_cons_of_mem _ hh)) (h1.2 (fun e => hn (by rw [← e]; exact List.mem_cons_self ..)) g)

/-! ### Genesis -/

theorem blank_all {led : St} : Pay E (blank E led) ∧ Grow (blank E led) := by
  constructor
  · refine ⟨fun _ => List.nodup_nil, fun _ _ => rfl, fun _ _ => rfl, ?_, ?_, List.nodup_nil, ?_, ?_, List.nodup_nil, ?_⟩
    · intro x hx; cases hx
    · intro x hx; cases hx
    · intro x hx; cases hx
    · intro e x hx; cases hx
    · intro e t h; cases h
  · refine ⟨?_, ?_, ?_, List.nodup_nil, ?_, List.nodup_nil⟩
    · intro p g hg
      have hg : upd (fun _ => none) 0 (some ⟨1, 0, 0, 0, [], none, none⟩) p = some g := hg
      by_cases e : p = 0
      · subst e; rw [upd_same] at hg; injection hg with hg; subst hg; exact ⟨rfl, List.nodup_nil, fun _ => rfl⟩
      · rw [upd_ne _ _ e] at hg; cases hg
    · intro x hx; cases hx
    · intro x hx; cases hx
    · intro x hx; cases hx

theorem genesis_all {led : St} (h : Inv E.par led) (he : led.era = 1) (hF : genesis E led = some F) :
    All E F ∧ ((∀ c r, led.cands c = some r → 0 < r.info.bond) → 1 ≤ led.minCollator → Sums F) := by
  obtain ⟨G, h1, hcore⟩ := genesis_core h he
  rw [h1] at hF
  injection hF with hF
  subst hF
  obtain ⟨F', h1', h2⟩ := selectTop_ok (E := E) (F := blank E led) h 1 (by intro c hc; cases hc)
  have : genesis E led = some F' := h1'
  rw [h1] at this
  injection this with this
  subst this
  have hf := h2.frame
  obtain ⟨bp, bg⟩ := blank_all (E := E) (led := led)
  refine ⟨⟨hcore, ?_, Grow.same (F := blank E led) ⟨hf.growth, hf.gpIndex, hf.processed, hf.sent, hf.payouts⟩ bg⟩, ?_⟩
  · refine ⟨by rw [hf.awarded]; exact bp.nodup, by rw [hf.awarded, hf.points, hf.led]; exact bp.pts,
      by rw [hf.delayed, hf.led]; exact bp.del, by rw [hf.served, hf.led]; exact bp.late,
      by rw [hf.served, hf.awarded]; exact bp.out, by rw [hf.served]; exact bp.once, by rw [hf.paid, hf.served]; exact bp.logged, ?_,
      by rw [hf.paid]; exact bp.payees, by rw [hf.delayed, hf.points, hf.aside]; exact bp.live⟩
    exact h2.snaps (P := E.par) h SnapOk (fun c r hr => snapshot_ok h hr) bp.snap
  · intro hb hm
    refine ⟨by rw [hf.led]; exact hb, by rw [hf.led]; exact hm,
      h2.snaps (P := E.par) h (fun _ sn => 0 < sn.bond) (fun c r hr => hb c r hr) (fun d x hx => by cases hx), ?_, ?_⟩
    · rw [hf.delayed]; intro e t ht; cases ht
    · intro e
      unfold paidSum paidOf servedOf
      rw [hf.paid]
      exact Nat.zero_le _

/-! ### Growth payouts -/

/-- A successful loop of payments pays everybody. -/
theorem mintAll_done (l : List (Nat × Nat)) (F : Full) (h : (mintAll l F).2.2 = true) :
    (mintAll l F).2.1 = valSum l ∧
    ∀ a, (mintAll l F).1.led.free a = F.led.free a + valSum (l.filter (fun x => decide (x.1 = a))) := by
  induction l generalizing F with
  | nil => exact ⟨rfl, fun _ => rfl⟩
  | cons x l ih =>
    unfold mintAll at h ⊢
    by_cases h0 : F.led.free x.1 = 0
    · rw [if_pos h0] at h; cases h
    · rw [if_neg h0] at h ⊢
      dsimp only at h ⊢
      obtain ⟨h1, h2⟩ := ih _ h
      refine ⟨by rw [h1]; rfl, ?_⟩
      intro a
      rw [h2 a]
      show upd F.led.free x.1 (F.led.free x.1 + x.2) a + _ = _
      by_cases e : a = x.1
      · subst e
        rw [upd_same, List.filter_cons, if_pos (decide_eq_true rfl)]
        unfold valSum
        rw [List.map_cons, List.sum_cons]
        omega
      · rw [upd_ne _ _ e, List.filter_cons, if_neg (by simp only [decide_eq_true_eq]; exact fun h => e h.symm)]

/-- The shares of a growth period: at most half a unit too much for each. -/
theorem growthShares_bound (g : Grow F) (amount period : Nat) :
    2 * valSum (growthShares F amount period) ≤ 2 * amount + (growthShares F amount period).length := by
  unfold growthShares
  cases hg : F.growth period with
  | some r =>
    dsimp only
    obtain ⟨h1, _, h3⟩ := g.sum period r hg
    rw [List.length_map]
    by_cases h0 : r.points = 0
    · rw [h3 h0]; exact Nat.zero_le _
    · have := shares_bound (r.scores.map Prod.snd) r.points amount (by omega) (Nat.le_of_eq h1)
      rw [List.map_map, List.length_map] at this
      unfold valSum
      rw [List.map_map]
      exact this
  | none =>
    dsimp only
    rw [List.length_map]
    by_cases h0 : F.selected = []
    · rw [h0]; exact Nat.zero_le _
    · have hl : (F.selected.map (fun _ => 1)).sum = F.selected.length := by
        generalize F.selected = l
        induction l with
        | nil => rfl
        | cons a l ih => rw [List.map_cons, List.sum_cons, ih, List.length_cons]; omega
      have := shares_bound (F.selected.map (fun _ => 1)) F.selected.length amount (List.length_pos_iff.2 h0) (Nat.le_of_eq hl)
      rw [List.map_map, List.length_map] at this
      unfold valSum
      rw [List.map_map]
      exact this

end Verif.Staking
