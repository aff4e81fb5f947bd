import Verif.Lemmas.StakingOps7

/-! # Every call: the invariant, and what it does to each nominator–collator pair and to each candidate -/

namespace Verif.Staking

variable {P : Par} {s s' t : St}

/-! ### Who asks for what -/

/-- The call asks to nominate collator `c` on behalf of `n`. -/
def Op.nominates : Op → Nat → Nat → Prop
  | .nominate m d _ _ _, n, c => m = n ∧ d = c
  | .splitNominate m ts _ _, n, c => m = n ∧ c ∈ ts
  | _, _, _ => False

/-- The call asks to bond more on behalf of `n` with `c`. -/
def Op.bondsMore : Op → Nat → Nat → Prop
  | .bondExtra m d _, n, c => m = n ∧ d = c
  | .bondExtraAll m _ _, n, _ => m = n
  | _, _, _ => False

/-- The call asks to schedule an unbonding request of `n` with `c`. -/
def Op.schedules : Op → Nat → Nat → Prop
  | .scheduleRevoke m d, n, c => m = n ∧ d = c
  | .scheduleDecrease m d _, n, c => m = n ∧ d = c
  | .scheduleUnbondAll m _, n, _ => m = n
  | .revokeAll m, n, _ => m = n
  | _, _, _ => False

/-- The call asks to cancel a request of `n` with `c`. -/
def Op.cancels : Op → Nat → Nat → Prop
  | .cancelRequest m d, n, c => m = n ∧ d = c
  | .cancelRevokeAll m, n, _ => m = n
  | _, _, _ => False

/-- The call asks to execute a request of `n` with `c`. -/
def Op.executes : Op → Nat → Nat → Prop
  | .executeRequest m d, n, c => m = n ∧ d = c
  | .executeDue m, n, _ => m = n
  | .executeRevokeAll m _, n, _ => m = n
  | _, _, _ => False

/-- What a call did to the bond and the request of `n` with `c`. -/
inductive PairStep (op : Op) (s s' : St) (n c : Nat) : Prop where
  | same (h : PairSame s s' n c)
  | nominated (who : op.nominates n c) (a : Nat) (was : ∀ x, ¬ HasN s.noms n c x) (now : ∀ x, HasN s'.noms n c x ↔ x = a)
      (req : ∀ q : Req, q.nominator = n → (q ∈ s'.reqs c ↔ q ∈ s.reqs c))
  | more (who : op.bondsMore n c) (a k : Nat) (was : HasN s.noms n c a) (now : ∀ x, HasN s'.noms n c x ↔ x = a + k)
      (req : ∀ q : Req, q.nominator = n → (q ∈ s'.reqs c ↔ q ∈ s.reqs c))
  | scheduled (who : op.schedules n c) (bond : ∀ x, HasN s'.noms n c x ↔ HasN s.noms n c x) (q : Req) (by_ : q.nominator = n)
      (due : q.due = s.era + s.delay) (req : ∀ x : Req, x.nominator = n → (x ∈ s'.reqs c ↔ x = q))
  | cancelled (who : op.cancels n c) (bond : ∀ x, HasN s'.noms n c x ↔ HasN s.noms n c x) (was : ∃ q ∈ s.reqs c, q.nominator = n)
      (req : ∀ q ∈ s'.reqs c, q.nominator ≠ n)
  | executed (who : op.executes n c) (h : PairExec s s' n c)
  | kicked (m : Nat) (who : op.nominates m c) (other : m ≠ n) (was : ∃ x, HasN s.noms n c x) (h : PairGone s' n c)
  | left (hint : Nat) (who : op = .executeLeave c hint) (r : CRec) (w : Nat) (cand : s.cands c = some r)
      (status : r.info.status = .leaving w) (due : w ≤ s.era) (h : PairGone s' n c)

/-- What a call did to a candidate's own bond, request and state (what it records about its nominations is not looked at). -/
inductive CandStep (op : Op) (s s' : St) (c : Nat) : Prop where
  | absent (h : s.cands c = none) (h' : s'.cands c = none)
  | same (r r' : CRec) (h : s.cands c = some r) (h' : s'.cands c = some r') (bond : r'.info.bond = r.info.bond)
      (request : r'.info.request = r.info.request) (status : r'.info.status = r.info.status)
  | joined (bond hint : Nat) (reg : Bool) (who : op = .join c bond hint reg) (h : s.cands c = none) (r' : CRec) (h' : s'.cands c = some r')
      (b : r'.info.bond = bond) (request : r'.info.request = none) (status : r'.info.status = .active) (min : s.minCollator ≤ bond)
  | status (who : (∃ h, op = .cancelLeave c h) ∨ op = .goOffline c ∨ op = .goOnline c) (r r' : CRec) (h : s.cands c = some r)
      (h' : s'.cands c = some r') (bond : r'.info.bond = r.info.bond) (request : r'.info.request = r.info.request)
      (st : r'.info.isLeaving = false)
  | leaving (hint : Nat) (who : op = .scheduleLeave c hint) (r r' : CRec) (h : s.cands c = some r) (h' : s'.cands c = some r')
      (bond : r'.info.bond = r.info.bond) (request : r'.info.request = r.info.request) (was : r.info.isLeaving = false)
      (st : r'.info.status = .leaving (s.era + s.delay))
  | left (hint : Nat) (who : op = .executeLeave c hint) (r : CRec) (w : Nat) (h : s.cands c = some r) (h' : s'.cands c = none)
      (st : r.info.status = .leaving w) (due : w ≤ s.era)
  | more (k : Nat) (who : op = .candBondExtra c k) (r r' : CRec) (h : s.cands c = some r) (h' : s'.cands c = some r')
      (bond : r'.info.bond = r.info.bond + k) (request : r'.info.request = r.info.request) (status : r'.info.status = r.info.status)
  | unbondScheduled (k : Nat) (who : op = .candScheduleUnbond c k) (r r' : CRec) (h : s.cands c = some r) (h' : s'.cands c = some r')
      (bond : r'.info.bond = r.info.bond) (was : r.info.request = none) (request : r'.info.request = some ⟨k, s.era + s.delay⟩)
      (status : r'.info.status = r.info.status)
  | unbondExecuted (who : op = .candExecuteUnbond c) (r r' : CRec) (q : UnbondReq) (h : s.cands c = some r) (h' : s'.cands c = some r')
      (was : r.info.request = some q) (due : q.due ≤ s.era) (bond : r'.info.bond + q.amount = r.info.bond)
      (request : r'.info.request = none) (status : r'.info.status = r.info.status)
  | unbondCancelled (who : op = .candCancelUnbond c) (r r' : CRec) (h : s.cands c = some r) (h' : s'.cands c = some r')
      (bond : r'.info.bond = r.info.bond) (was : r.info.request ≠ none) (request : r'.info.request = none)
      (status : r'.info.status = r.info.status)

/-- The invariant of all histories. -/
structure Inv (P : Par) (s : St) : Prop where
  g : GInv P s
  q : CReq s

/-- What one successful call does. -/
structure StepSpec (P : Par) (op : Op) (s s' : St) : Prop where
  inv : Inv P s'
  pair : ∀ n c, PairStep op s s' n c
  cand : ∀ c, CandStep op s s' c
  era : s'.era = s.era ∨ (op = .newEra ∧ s'.era = s.era + 1)
  free : s'.free = s.free ∨ ∃ a v, op = .setFree a v ∧ s'.free = upd s.free a v
  minCollator : s'.minCollator = s.minCollator ∨ ∃ v, op = .setMinCollator v ∧ s'.minCollator = v
  delay : s'.delay = s.delay ∨ ∃ d, op = .setDelay d ∧ 0 < d ∧ s'.delay = d
  minTotal : s'.minTotal = s.minTotal ∨ ∃ v, op = .setMinTotal v ∧ P.minPer ≤ v ∧ s'.minTotal = v

/-! ### Helpers -/

theorem CandStep.ofKept {op : Op} (h : Kept s s') (c : Nat) : CandStep op s s' c := by
  cases hc : s'.cands c with
  | none =>
    cases hs : s.cands c with
    | none => exact .absent hs hc
    | some r => have := h.fwd c (by rw [hs]; rfl); rw [hc] at this; cases this
  | some r' =>
    obtain ⟨r, h0, e1, e2, e3⟩ := h.back c r' hc
    exact .same r r' h0 hc e1 e2 e3

theorem PairSame.ofEq (hn : s'.noms = s.noms) (hr : s'.reqs = s.reqs) (n c : Nat) : PairSame s s' n c :=
  ⟨fun x => by rw [hn], fun q _ => by rw [hr]⟩

theorem StepSpec.own {op : Op} (h : Inv P s) {c : Nat} {r : CRec} {i : Info} (ho : OwnSpec P s s' c r i)
    (hi : ∀ q, i.request = some q → q.amount < i.bond) (hc : CandStep op s s' c) : StepSpec P op s s' := by
  refine ⟨⟨ho.inv, h.q.own ho hi⟩, fun n d => .same (PairSame.ofEq ho.noms ho.reqs n d), ?_, Or.inl ho.same.era, Or.inl ho.same.free, Or.inl ho.same.minCollator, Or.inl ho.same.delay, Or.inl ho.same.minTotal⟩
  intro d
  by_cases e : d = c
  · subst e; exact hc
  · have he : s'.cands d = s.cands d := by rw [ho.now, upd_ne _ _ e]
    cases hs : s.cands d with
    | none => exact .absent hs (he.trans hs)
    | some r => exact .same r r hs (he.trans hs) rfl rfl rfl

theorem OwnSpec.at {c : Nat} {r : CRec} {i : Info} (ho : OwnSpec P s s' c r i) : s'.cands c = some { r with info := i } := by
  rw [ho.now, upd_same]

theorem StepSpec.reqOnly {op : Op} (h : Inv P s) {n : Nat} (ho : ReqOnly P s s' n)
    (hp : ∀ c, PairStep op s s' n c) : StepSpec P op s s' := by
  refine ⟨⟨ho.inv, h.q.kept (Kept.same ho.same.cands)⟩, ?_, fun c => CandStep.ofKept (Kept.same ho.same.cands) c, Or.inl ho.same.era, Or.inl ho.same.free, Or.inl ho.same.minCollator, Or.inl ho.same.delay, Or.inl ho.same.minTotal⟩
  intro m c
  by_cases e : m = n
  · subst e; exact hp c
  · exact .same ⟨ho.bonds m c, fun q hq => ho.others c q (by rw [hq]; exact e)⟩

theorem ScheduleSpec.only {n c : Nat} {q : Req} (hq : q.nominator = n) (h : ScheduleSpec P s s' n c q) : ReqOnly P s s' n := by
  refine ⟨h.inv, h.same, h.locks, h.bonds, ?_⟩
  intro d x hx
  rw [h.reqs]
  by_cases e : d = c
  · subst e
    rw [upd_same]
    by_cases hl : (s.reqs d).length < P.maxPer
    · rw [if_pos hl, List.mem_append, List.mem_singleton]
      constructor
      · rintro (e | e)
        · exact e
        · subst e; exact absurd hq hx
      · exact Or.inl
    · rw [if_neg hl]
  · rw [upd_ne _ _ e]

theorem ScheduleSpec.pair {op : Op} {n c : Nat} {q : Req} (hq : q.nominator = n) (hd : q.due = s.era + s.delay)
    (h : ScheduleSpec P s s' n c q) (ho : op.schedules n c) (d : Nat) : PairStep op s s' n d := by
  by_cases e : d = c
  · subst e
    by_cases hl : (s.reqs d).length < P.maxPer
    · refine .scheduled ho (h.bonds n d) q hq hd ?_
      intro x hx
      rw [h.reqs, upd_same, if_pos hl, List.mem_append, List.mem_singleton]
      constructor
      · rintro (e | e)
        · exact absurd hx (h.isNew x e)
        · exact e
      · exact Or.inr
    · have := h.full (by omega)
      subst this
      exact .same (PairSame.refl ..)
  · exact .same ⟨h.bonds n d, fun x _ => by rw [h.reqs, upd_ne _ _ e]⟩

theorem CandStep.ofEq {op : Op} {d : Nat} (he : s'.cands d = s.cands d) : CandStep op s s' d := by
  cases hs : s.cands d with
  | none => exact .absent hs (he.trans hs)
  | some r => exact .same r r hs (he.trans hs) rfl rfl rfl

/-! ### All calls -/

theorem call_ok (hP : P.Ok) (hmax : 1 ≤ P.maxPer) (h : Inv P s) {op : Op} (ho : call P s op = some s') : StepSpec P op s s' := by
  cases op with
  | join c bond hint reg =>
    have hj := join_ok hP h.g ho
    refine ⟨⟨hj.inv, ?_⟩, fun n d => .same (PairSame.ofEq hj.noms hj.reqs n d), ?_, Or.inl hj.same.era, Or.inl hj.same.free, Or.inl hj.same.minCollator, Or.inl hj.same.delay, Or.inl hj.same.minTotal⟩
    · intro d r q hr hq
      rw [hj.now] at hr
      by_cases e : d = c
      · subst e
        rw [upd_same] at hr
        injection hr with hr
        subst hr
        cases hq
      · rw [upd_ne _ _ e] at hr; exact h.q d r q hr hq
    · intro d
      by_cases e : d = c
      · subst e
        exact .joined bond hint reg rfl hj.wasNot _ (by rw [hj.now, upd_same]) rfl rfl rfl hj.min
      · exact CandStep.ofEq (by rw [hj.now, upd_ne _ _ e])
  | scheduleLeave c hint =>
    obtain ⟨r, h1, h2⟩ := scheduleLeave_ok h.g ho
    exact StepSpec.own h h2 (fun q hq => h.q c r q h2.was hq) (.leaving hint rfl r _ h2.was h2.at rfl rfl h1 rfl)
  | executeLeave c hint =>
    obtain ⟨r, h1, h2⟩ := executeLeave_ok hP h.g ho
    obtain ⟨w, hw1, hw2⟩ := h2.due
    refine ⟨⟨h2.inv, ?_⟩, ?_, ?_, Or.inl h2.same.era, Or.inl h2.same.free, Or.inl h2.same.minCollator, Or.inl h2.same.delay, Or.inl h2.same.minTotal⟩
    · intro d r0 q hr hq
      by_cases e : d = c
      · subst e; rw [h2.gone] at hr; cases hr
      · rw [h2.others d e] at hr; exact h.q d r0 q hr hq
    · intro n d
      by_cases e : d = c
      · subst e
        refine .left hint rfl r w h1 hw1 hw2 ⟨fun x hx => ((h2.bonds _ _ _).1 hx).2 rfl, ?_⟩
        intro q hq
        rw [h2.reqs, upd_same] at hq
        cases hq
      · exact .same ⟨fun x => by rw [h2.bonds]; exact ⟨fun e => e.1, fun e2 => ⟨e2, e⟩⟩, fun q _ => by rw [h2.reqs, upd_ne _ _ e]⟩
    · intro d
      by_cases e : d = c
      · subst e
        exact .left hint rfl r w h1 h2.gone hw1 hw2
      · exact CandStep.ofEq (h2.others d e)
  | cancelLeave c hint =>
    obtain ⟨r, h1, h2⟩ := cancelLeave_ok h.g ho
    exact StepSpec.own h h2 (fun q hq => h.q c r q h2.was hq) (.status (Or.inl ⟨hint, rfl⟩) r _ h2.was h2.at rfl rfl rfl)
  | goOffline c =>
    obtain ⟨r, h1, h2⟩ := goOffline_ok h.g ho
    exact StepSpec.own h h2 (fun q hq => h.q c r q h2.was hq) (.status (Or.inr (Or.inl rfl)) r _ h2.was h2.at rfl rfl rfl)
  | goOnline c =>
    obtain ⟨r, h1, h3, h2⟩ := goOnline_ok h.g ho
    exact StepSpec.own h h2 (fun q hq => h.q c r q h2.was hq) (.status (Or.inr (Or.inr rfl)) r _ h2.was h2.at rfl rfl rfl)
  | candBondExtra c more =>
    obtain ⟨r, h2, _⟩ := candBondExtra_ok h.g ho
    exact StepSpec.own h h2 (fun q hq => Nat.lt_of_lt_of_le (h.q c r q h2.was hq) (Nat.le_add_right _ _))
      (.more more rfl r _ h2.was h2.at rfl rfl rfl)
  | candScheduleUnbond c less =>
    obtain ⟨r, h1, h3, h4, h2, _⟩ := candScheduleUnbond_ok h.g ho
    refine StepSpec.own h h2 ?_ (.unbondScheduled less rfl r _ h2.was h2.at rfl h1 rfl rfl)
    intro q hq
    have : (⟨less, s.era + s.delay⟩ : UnbondReq) = q := by injection hq
    subst this
    exact h3
  | candExecuteUnbond c =>
    obtain ⟨r, q, h1, h3, h4, h2, _⟩ := candExecuteUnbond_ok h.g h.q ho
    refine StepSpec.own h h2 (fun q hq => by cases hq) (.unbondExecuted rfl r _ q h2.was h2.at h1 h3 ?_ rfl rfl)
    show r.info.bond - q.amount + q.amount = _
    omega
  | candCancelUnbond c =>
    obtain ⟨r, h1, h2, _⟩ := candCancelUnbond_ok h.g ho
    exact StepSpec.own h h2 (fun q hq => by cases hq) (.unbondCancelled rfl r _ h2.was h2.at rfl h1 rfl rfl)
  | nominate n c a hc hn =>
    have ho : nominateCall P s n c a hc hn = some s' := ho
    unfold nominateCall at ho
    by_cases he : P.enabled = true
    · rw [if_pos he] at ho
      have hN := nominate_ok hP hmax h.g ho
      refine ⟨⟨hN.inv, h.q.kept hN.kept⟩, ?_, fun d => CandStep.ofKept hN.kept d, Or.inl hN.era, Or.inl hN.free, Or.inl hN.params.2.2, Or.inl hN.params.1, Or.inl hN.params.2.1⟩
      intro m d
      by_cases e : m = n
      · subst e
        by_cases e2 : d = c
        · subst e2
          refine .nominated ⟨rfl, rfl⟩ a hN.fresh ?_ (hN.ownReqs d)
          intro x
          rw [hN.own]
          constructor
          · rintro (e | e)
            · exact e.2
            · exact absurd e (hN.fresh x)
          · intro e; exact Or.inl ⟨rfl, e⟩
        · refine .same ⟨?_, hN.ownReqs d⟩
          intro x
          rw [hN.own]
          constructor
          · rintro (e | e)
            · exact absurd e.1 e2
            · exact e
          · exact Or.inr
      · rcases hN.others m d e with g | ⟨g1, g2, g3⟩
        · exact .same g
        · exact .kicked n ⟨rfl, g3.symm⟩ (Ne.symm e) g1 g2
    · rw [if_neg he] at ho; cases ho
  | splitNominate n ts a blk =>
    obtain ⟨_, _, _, hS⟩ := splitAndNominate_ok hP hmax h.g ho
    refine ⟨⟨hS.inv, h.q.kept hS.kept⟩, ?_, fun d => CandStep.ofKept hS.kept d, Or.inl hS.same.era, Or.inl hS.same.free, Or.inl hS.same.minCollator, Or.inl hS.same.delay, Or.inl hS.same.minTotal⟩
    intro m d
    by_cases e : m = n
    · subst e
      generalize hl : ts.zip _ = l at hS
      have hin : ∀ x, (d, x) ∈ l → d ∈ ts := by intro x hx; rw [← hl] at hx; exact (List.of_mem_zip hx).1
      by_cases e2 : ∃ x, (d, x) ∈ l
      · obtain ⟨x, hx⟩ := e2
        refine .nominated ⟨rfl, hin x hx⟩ x (hS.fresh d x hx) ?_ (hS.ownReqs d)
        intro y
        rw [hS.own]
        constructor
        · rintro (e | e)
          · -- one amount per collator
            have key : ∀ l : List (Nat × Nat), (l.map Prod.fst).Nodup → (d, x) ∈ l → (d, y) ∈ l → y = x := by
              intro l
              induction l with
              | nil => intro _ h; cases h
              | cons z l ih =>
                intro hnd h1 h2
                obtain ⟨k1, k2⟩ := List.nodup_cons.1 hnd
                rcases List.mem_cons.1 h1 with rfl | h1' <;> rcases List.mem_cons.1 h2 with e2 | h2'
                · exact (Prod.mk.inj e2).2
                · exact absurd (List.mem_map.2 ⟨_, h2', rfl⟩) k1
                · subst e2; exact absurd (List.mem_map.2 ⟨_, h1', rfl⟩) k1
                · exact ih k2 h1' h2'
            exact key l hS.distinct hx e
          · exact absurd e (hS.fresh d x hx y)
        · intro e; subst e; exact Or.inl hx
      · refine .same ⟨?_, hS.ownReqs d⟩
        intro x
        rw [hS.own]
        constructor
        · rintro (e | e)
          · exact absurd ⟨x, e⟩ e2
          · exact e
        · exact Or.inr
    · rcases hS.others m d e with g | ⟨g1, g2, x, g3⟩
      · exact .same g
      · exact .kicked n ⟨rfl, (List.of_mem_zip g3).1⟩ (Ne.symm e) g1 g2
  | bondExtra n c m =>
    have ho : bondExtraCall P s n c m = some s' := ho
    unfold bondExtraCall at ho
    by_cases he : P.enabled = true
    · rw [if_pos he] at ho
      have hB := bondExtra_ok hP h.g ho
      obtain ⟨a, hb1, hb2⟩ := hB.bond
      refine ⟨⟨hB.inv, h.q.kept hB.kept⟩, ?_, fun d => CandStep.ofKept hB.kept d, Or.inl hB.same.era, Or.inl hB.same.free, Or.inl hB.same.minCollator, Or.inl hB.same.delay, Or.inl hB.same.minTotal⟩
      intro m' d
      by_cases e : m' = n ∧ d = c
      · obtain ⟨rfl, rfl⟩ := e
        refine .more ⟨rfl, rfl⟩ a m hb1 ?_ (fun q _ => by rw [hB.reqs])
        intro x
        rw [hb2]
        constructor
        · rintro (e | e)
          · exact e.2.2
          · exact absurd ⟨rfl, rfl⟩ e.2
        · intro e; exact Or.inl ⟨rfl, rfl, e⟩
      · refine .same ⟨?_, fun q _ => by rw [hB.reqs]⟩
        intro x
        rw [hb2]
        constructor
        · rintro (e2 | e2)
          · exact absurd ⟨e2.1, e2.2.1⟩ e
          · exact e2.1
        · intro e2; exact Or.inr ⟨e2, e⟩
    · rw [if_neg he] at ho; cases ho
  | bondExtraAll n a blk =>
    obtain ⟨r, hr, _, _, _, hB⟩ := bondExtraAll_ok hP h.g ho
    refine ⟨⟨hB.inv, h.q.kept hB.kept⟩, ?_, fun d => CandStep.ofKept hB.kept d, Or.inl hB.same.era, Or.inl hB.same.free, Or.inl hB.same.minCollator, Or.inl hB.same.delay, Or.inl hB.same.minTotal⟩
    intro m d
    generalize (r.noms.map Bond.owner).zip _ = l at hB
    by_cases e : m = n ∧ d ∈ l.map Prod.fst
    · obtain ⟨rfl, e⟩ := e
      obtain ⟨⟨d', k⟩, hz, rfl⟩ := List.mem_map.1 e
      obtain ⟨b, g1, g2⟩ := hB.own d' k hz
      exact .more rfl b k g1 g2 (fun q _ => by rw [hB.reqs])
    · exact .same ⟨fun x => hB.others m d x e, fun q _ => by rw [hB.reqs]⟩
  | scheduleRevoke n c =>
    obtain ⟨a, _, hs⟩ := scheduleRevoke_ok h.g ho
    refine StepSpec.reqOnly (n := n) h (ScheduleSpec.only (n := n) rfl hs) ?_
    exact fun d => ScheduleSpec.pair (n := n) rfl rfl hs (show Op.schedules (.scheduleRevoke n c) n c from ⟨rfl, rfl⟩) d
  | scheduleDecrease n c l =>
    obtain ⟨a, _, _, _, hs⟩ := scheduleDecrease_ok h.g ho
    refine StepSpec.reqOnly (n := n) h (ScheduleSpec.only (n := n) rfl hs) ?_
    exact fun d => ScheduleSpec.pair (n := n) rfl rfl hs (show Op.schedules (.scheduleDecrease n c l) n c from ⟨rfl, rfl⟩) d
  | scheduleUnbondAll n l =>
    obtain ⟨l, hs, _, hnd, _⟩ := scheduleUnbondAll_ok h.g ho
    refine StepSpec.reqOnly h hs.only ?_
    intro c
    by_cases e : c ∈ l.map Prod.fst
    · obtain ⟨⟨c', k⟩, hz, rfl⟩ := List.mem_map.1 e
      obtain ⟨g1, _, g3⟩ := hs.own c' k hz
      by_cases hl : (s.reqs c').length < P.maxPer
      · rw [if_pos hl] at g3
        refine .scheduled rfl (hs.only.bonds n c') ⟨n, false, k, s.era + s.delay⟩ rfl rfl ?_
        intro x hx
        show x ∈ s'.reqs c' ↔ _
        rw [g3, List.mem_append, List.mem_singleton]
        constructor
        · rintro (e | e)
          · exact absurd hx (g1 x e)
          · exact e
        · exact Or.inr
      · rw [if_neg hl] at g3
        exact .same ⟨hs.only.bonds n c', fun q _ => by show q ∈ s'.reqs c' ↔ q ∈ s.reqs c'; rw [g3]⟩
    · exact .same ⟨hs.only.bonds n c, fun q _ => by rw [hs.out c e]⟩
  | cancelRequest n c =>
    have hs := cancelRequest_ok h.g ho
    have hu := h.g.n.uniq c
    refine StepSpec.reqOnly (n := n) h ⟨hs.inv, hs.same, hs.locks, hs.bonds, ?_⟩ ?_
    · intro d q hq
      rw [hs.reqs]
      by_cases e : d = c
      · subst e; rw [upd_same, dropReq_mem hu]; exact ⟨fun e => e.1, fun e => ⟨e, hq⟩⟩
      · rw [upd_ne _ _ e]
    · intro d
      by_cases e : d = c
      · subst e
        refine .cancelled ⟨rfl, rfl⟩ (hs.bonds n d) hs.was ?_
        intro q hq
        rw [hs.reqs, upd_same] at hq
        exact ((dropReq_mem hu).1 hq).2
      · exact .same ⟨hs.bonds n d, fun q _ => by rw [hs.reqs, upd_ne _ _ e]⟩
  | executeRequest n c =>
    obtain ⟨q, hs⟩ := executeRequest_ok hP h.g ho
    refine ⟨⟨hs.inv, h.q.kept hs.kept⟩, ?_, fun d => CandStep.ofKept hs.kept d, Or.inl hs.same.era, Or.inl hs.same.free, Or.inl hs.same.minCollator, Or.inl hs.same.delay, Or.inl hs.same.minTotal⟩
    intro m d
    by_cases e : m = n ∧ d = c
    · obtain ⟨rfl, rfl⟩ := e
      exact .executed ⟨rfl, rfl⟩ (hs.pair (h.g.n.uniq d))
    · exact .same (hs.other (h.g.n.uniq c) e)
  | executeDue n =>
    obtain ⟨r, hr, hs⟩ := executeDue_ok hP h.g ho
    refine ⟨⟨hs.inv, h.q.kept hs.kept⟩, ?_, fun d => CandStep.ofKept hs.kept d, Or.inl hs.same.era, Or.inl hs.same.free, Or.inl hs.same.minCollator, Or.inl hs.same.delay, Or.inl hs.same.minTotal⟩
    intro m d
    by_cases e : m = n ∧ ∃ b ∈ r.noms, b.owner = d
    · obtain ⟨rfl, b, hb, rfl⟩ := e
      rcases hs.pair b hb with g | ⟨g, _⟩
      · exact .executed rfl g
      · exact .same g
    · exact .same (hs.other m d e)
  | revokeAll n =>
    obtain ⟨h1, h2, _⟩ := revokeAll_ok h.g ho
    refine StepSpec.reqOnly h h1 ?_
    intro c
    -- the request of `n` afterwards, if any
    by_cases hex : ∃ q ∈ s'.reqs c, q.nominator = n
    · obtain ⟨q, hq, hqn⟩ := hex
      have huniq : ∀ x : Req, x.nominator = n → (x ∈ s'.reqs c ↔ x = q) := by
        intro x hx
        constructor
        · intro e; exact (h1.inv.n.uniq c).eq e hq (hx.trans hqn.symm)
        · rintro rfl; exact hq
      rcases h2 c q hq hqn with e | ⟨a, _, e⟩
      · refine .same ⟨h1.bonds n c, ?_⟩
        intro x hx
        rw [huniq x hx]
        constructor
        · rintro rfl; exact e
        · intro e2; exact (h.g.n.uniq c).eq e2 e (hx.trans hqn.symm)
      · exact .scheduled rfl (h1.bonds n c) q hqn (by rw [e]) huniq
    · -- none: then there was none before, because the list was left alone
      refine .same ⟨h1.bonds n c, ?_⟩
      intro x hx
      constructor
      · intro e; exact absurd ⟨x, e, hx⟩ hex
      · intro e
        exfalso
        obtain ⟨r0, b0, k1, k2, k3, _⟩ := h.g.n.req c x e
        have hN : HasN s.noms n c b0.amount := ⟨r0, by rw [← hx]; exact k1, by rw [← k3]; exact k2⟩
        obtain ⟨_, _, h3⟩ := revokeAll_ok h.g ho
        rcases h3 c _ hN with ⟨q, g1, g2, _⟩ | ⟨_, _, g3⟩
        · exact hex ⟨q, g1, g2⟩
        · exact g3 x e hx
  | cancelRevokeAll n =>
    obtain ⟨h1, h2, h3⟩ := cancelRevokeAll_ok h.g ho
    refine StepSpec.reqOnly h h1 ?_
    intro c
    by_cases hex : ∃ q ∈ s.reqs c, q.nominator = n
    · exact .cancelled rfl (h1.bonds n c) hex (h2 c)
    · refine .same ⟨h1.bonds n c, ?_⟩
      intro x hx
      constructor
      · intro e; exact absurd hx (h2 c x e)
      · intro e; exact absurd ⟨x, e, hx⟩ hex
  | executeRevokeAll n hint =>
    obtain ⟨r, hr, _, _, hs, hp⟩ := executeRevokeAll_ok hP h.g ho
    refine ⟨⟨hs.inv, h.q.kept hs.kept⟩, ?_, fun d => CandStep.ofKept hs.kept d, Or.inl hs.same.era, Or.inl hs.same.free, Or.inl hs.same.minCollator, Or.inl hs.same.delay, Or.inl hs.same.minTotal⟩
    intro m d
    by_cases e : m = n ∧ ∃ b ∈ r.noms, b.owner = d
    · obtain ⟨rfl, b, hb, rfl⟩ := e
      exact .executed rfl (hp b hb)
    · exact .same (hs.other m d e)
  | setDelay d =>
    have ho : (if 0 < d then some { s with delay := d } else none) = some s' := ho
    by_cases hd : 0 < d
    · rw [if_pos hd] at ho
      injection ho with ho
      subst ho
      exact ⟨⟨⟨h.g.n, h.g.c, h.g.link, h.g.excl, h.g.min⟩, h.q⟩, fun n c => .same (PairSame.refl ..), fun c => CandStep.ofEq rfl, Or.inl rfl, Or.inl rfl, Or.inl rfl, Or.inr ⟨d, rfl, hd, rfl⟩, Or.inl rfl⟩
    · rw [if_neg hd] at ho; cases ho
  | setMinCollator v =>
    have ho : some { s with minCollator := v } = some s' := ho
    injection ho with ho
    subst ho
    exact ⟨⟨⟨h.g.n, h.g.c, h.g.link, h.g.excl, h.g.min⟩, h.q⟩, fun n c => .same (PairSame.refl ..), fun c => CandStep.ofEq rfl, Or.inl rfl, Or.inl rfl, Or.inr ⟨v, rfl, rfl⟩, Or.inl rfl, Or.inl rfl⟩
  | setMinTotal v =>
    have ho : (if P.minPer ≤ v then some { s with minTotal := v } else none) = some s' := ho
    by_cases hd : P.minPer ≤ v
    · rw [if_pos hd] at ho
      injection ho with ho
      subst ho
      exact ⟨⟨⟨h.g.n, h.g.c, h.g.link, h.g.excl, hd⟩, h.q⟩, fun n c => .same (PairSame.refl ..), fun c => CandStep.ofEq rfl, Or.inl rfl, Or.inl rfl, Or.inl rfl, Or.inl rfl, Or.inr ⟨v, rfl, hd, rfl⟩⟩
    · rw [if_neg hd] at ho; cases ho
  | newEra =>
    have ho : some { s with era := s.era + 1 } = some s' := ho
    injection ho with ho
    subst ho
    exact ⟨⟨⟨h.g.n, h.g.c, h.g.link, h.g.excl, h.g.min⟩, h.q⟩, fun n c => .same (PairSame.refl ..), fun c => CandStep.ofEq rfl,
      Or.inr ⟨rfl, rfl⟩, Or.inl rfl, Or.inl rfl, Or.inl rfl, Or.inl rfl⟩
  | setFree a v =>
    have ho : some { s with free := upd s.free a v } = some s' := ho
    injection ho with ho
    subst ho
    exact ⟨⟨⟨h.g.n, h.g.c, h.g.link, h.g.excl, h.g.min⟩, h.q⟩, fun n c => .same (PairSame.refl ..), fun c => CandStep.ofEq rfl, Or.inl rfl, Or.inr ⟨a, v, rfl, rfl⟩, Or.inl rfl, Or.inl rfl, Or.inl rfl⟩

/-! ### Histories -/

theorem step_ok (hP : P.Ok) (hmax : 1 ≤ P.maxPer) (h : Inv P s) (op : Op) : StepSpec P op s (step P s op) := by
  unfold step
  cases hc : call P s op with
  | none =>
    exact ⟨h, fun n c => .same (PairSame.refl ..), fun c => CandStep.ofEq rfl, Or.inl rfl, Or.inl rfl, Or.inl rfl, Or.inl rfl, Or.inl rfl⟩
  | some s' => exact call_ok hP hmax h hc

theorem run_snoc (P : Par) (s : St) (ops : List Op) (op : Op) : run P s (ops ++ [op]) = step P (run P s ops) op := by
  unfold run; rw [List.foldl_append]; rfl

theorem run_append (P : Par) (s : St) (a b : List Op) : run P s (a ++ b) = run P (run P s a) b := by
  unfold run; rw [List.foldl_append]

theorem run_inv (hP : P.Ok) (hmax : 1 ≤ P.maxPer) (h : Inv P s) (ops : List Op) : Inv P (run P s ops) := by
  induction ops generalizing s with
  | nil => exact h
  | cons op ops ih => exact ih (step_ok hP hmax h op).inv

theorem init_inv {delay mt mc : Nat} {free : Nat → Nat} (h : P.minPer ≤ mt) : Inv P (St.init delay mt mc free) :=
  ⟨GInv.init h, fun c r q hr _ => by cases hr⟩

end Verif.Staking
