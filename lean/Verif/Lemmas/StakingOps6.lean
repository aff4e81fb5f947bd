import Verif.Lemmas.StakingOps5

/-! # The candidates' own calls keep the invariant -/

namespace Verif.Staking

variable {P : Par} {s s' : St}

/-- A call that changes only a candidate's own data, to `i`. -/
structure OwnSpec (P : Par) (s s' : St) (c : Nat) (r : CRec) (i : Info) : Prop where
  inv : GInv P s'
  was : s.cands c = some r
  now : s'.cands = upd s.cands c (some { r with info := i })
  noms : s'.noms = s.noms
  nlock : s'.nlock = s.nlock
  reqs : s'.reqs = s.reqs
  same : SameP s s'

/-- Every candidate's pending request is for less than its bond. -/
def CReq (s : St) : Prop := ∀ c r q, s.cands c = some r → r.info.request = some q → q.amount < r.info.bond

theorem CReq.kept (h : CReq s) (k : Kept s s') : CReq s' := by
  intro c r q hr hq
  obtain ⟨r0, h0, e1, e2, _⟩ := k.back c r hr
  rw [e1]; rw [e2] at hq
  exact h c r0 q h0 hq

theorem CReq.own (h : CReq s) {c : Nat} {r : CRec} {i : Info} (ho : OwnSpec P s s' c r i)
    (hi : ∀ q, i.request = some q → q.amount < i.bond) : CReq s' := by
  intro d r' q hr hq
  rw [ho.now] at hr
  by_cases e : d = c
  · subst e
    rw [upd_same] at hr
    injection hr with hr
    subst hr
    exact hi q hq
  · rw [upd_ne _ _ e] at hr; exact h d r' q hr hq

section
variable (h : GInv P s) {c : Nat} {r : CRec} (hr : s.cands c = some r)
include h hr

theorem own_lock : s.clock c = r.info.bond := by rw [h.c.lock c, hr]; rfl

theorem own_counted : r.info.totalCounted = r.info.bond + sumAmt r.top.list := (h.c.inv c r hr).cache.counted

/-- Only the request changes. -/
theorem own_request {o : Option UnbondReq} : OwnSpec P s (s.putInfo c r { r.info with request := o }) c r { r.info with request := o } :=
  ⟨h.setInfo hr (i := { r.info with request := o }) (pool' := s.pool) (clock' := s.clock) (tot := s.total) rfl rfl rfl rfl rfl rfl
    (own_counted h hr) (h.c.inv c r hr).pool (fun _ _ => Iff.rfl) (own_lock h hr) (fun _ _ => rfl),
   hr, rfl, rfl, rfl, rfl, ⟨rfl, rfl, rfl, rfl, rfl⟩⟩

/-- The candidate leaves the pool. -/
theorem own_out {st : CStatus} (hst : st ≠ .active) :
    OwnSpec P s { (s.putInfo c r { r.info with status := st }) with pool := (setRemove Bond.owner s.pool c).2 } c r
      { r.info with status := st } := by
  obtain ⟨p1, p2, p3⟩ := pool_remove h.c.sorted c
  refine ⟨h.setInfo hr (i := { r.info with status := st }) (pool' := (setRemove Bond.owner s.pool c).2) (clock' := s.clock)
    (tot := s.total) rfl rfl rfl rfl rfl rfl (own_counted h hr) ?_ ?_ (own_lock h hr) (fun _ _ => rfl),
    hr, rfl, rfl, rfl, rfl, ⟨rfl, rfl, rfl, rfl, rfl⟩⟩
  · refine ⟨p1, Nat.le_trans p2 h.c.len, ?_, ?_⟩
    · intro e
      unfold Info.isActive at e
      exact absurd (by simpa using e) hst
    · intro _ x hx; exact ((p3 x).1 hx).2
  · intro x hx
    rw [p3]; exact ⟨fun e => e.1, fun e => ⟨e, hx⟩⟩

/-- The candidate enters the pool. -/
theorem own_in {pool' : List Bond} (e : setInsert Bond.owner P.cfg.maxPool s.pool ⟨c, r.info.totalCounted⟩ = (.added, pool')) :
    OwnSpec P s { (s.putInfo c r { r.info with status := .active }) with pool := pool' } c r { r.info with status := .active } := by
  obtain ⟨p1, p2, p3, p4⟩ := pool_insert h.c.sorted e
  refine ⟨h.setInfo hr (i := { r.info with status := .active }) (pool' := pool') (clock' := s.clock)
    (tot := s.total) rfl rfl rfl rfl rfl rfl (own_counted h hr) ?_ ?_ (own_lock h hr) (fun _ _ => rfl),
    hr, rfl, rfl, rfl, rfl, ⟨rfl, rfl, rfl, rfl, rfl⟩⟩
  · refine ⟨p1, p2, ?_, ?_⟩
    · intro _; exact (p4 _).2 (Or.inl rfl)
    · intro e; cases e
  · intro x hx
    rw [p4]
    constructor
    · rintro (rfl | e)
      · exact absurd rfl hx
      · exact e
    · exact Or.inr

/-- The candidate's bond changes. -/
theorem own_bond {i : Info} {clock' : Nat → Nat} {tot : Nat} (e1 : i.count = r.info.count) (e2 : i.lowestTop = r.info.lowestTop)
    (e3 : i.highestBottom = r.info.highestBottom) (e4 : i.lowestBottom = r.info.lowestBottom) (e5 : i.topCap = r.info.topCap)
    (e6 : i.bottomCap = r.info.bottomCap) (e7 : i.totalCounted = i.bond + sumAmt r.top.list) (e8 : i.status = r.info.status)
    (hl : clock' = upd s.clock c i.bond) :
    OwnSpec P s { (s.putInfo c r i) with pool := poolAfter P s c i, clock := clock', total := tot } c r i := by
  have hact : i.isActive = r.info.isActive := by unfold Info.isActive; rw [e8]
  have hp := (h.c.inv c r hr).pool
  refine ⟨h.setInfo hr (i := i) (pool' := poolAfter P s c i) (clock' := clock') (tot := tot) e1 e2 e3 e4 e5 e6 e7 ?_ ?_ ?_ ?_,
    hr, rfl, rfl, rfl, rfl, ⟨rfl, rfl, rfl, rfl, rfl⟩⟩
  · unfold poolAfter
    by_cases ha : i.isActive = true
    · rw [if_pos ha]
      obtain ⟨u1, u2, u3⟩ := updateActive_spec (cfg := P.cfg) h.c.sorted h.c.len c i.totalCounted
        ⟨_, hp.yes (by rw [← ha, hact]; rfl), rfl⟩
      refine ⟨u1, by rw [u2]; exact h.c.len, fun _ => (u3 _).2 (Or.inl rfl), fun e => by rw [ha] at e; cases e⟩
    · rw [if_neg ha]
      refine ⟨h.c.sorted, h.c.len, fun e => absurd e ha, fun e => hp.no (by rw [← e, hact]; rfl)⟩
  · intro x hx
    unfold poolAfter
    by_cases ha : i.isActive = true
    · rw [if_pos ha]
      obtain ⟨u1, u2, u3⟩ := updateActive_spec (cfg := P.cfg) h.c.sorted h.c.len c i.totalCounted
        ⟨_, hp.yes (by rw [← ha, hact]; rfl), rfl⟩
      rw [u3]
      constructor
      · rintro (rfl | e)
        · exact absurd rfl hx
        · exact e.1
      · intro e; exact Or.inr ⟨e, hx⟩
    · rw [if_neg ha]
  · rw [hl, upd_same]
  · intro d hd; rw [hl, upd_ne _ _ hd]

end

theorem scheduleLeave_ok (h : GInv P s) {c hint : Nat} (ho : scheduleLeave s c hint = some s') :
    ∃ r, r.info.isLeaving = false ∧ OwnSpec P s s' c r { r.info with status := .leaving (s.era + s.delay) } := by
  unfold scheduleLeave at ho
  cases hr : s.cands c with
  | none => rw [hr] at ho; cases ho
  | some r =>
  rw [hr] at ho
  dsimp only at ho
  unfold Info.scheduleLeave at ho
  by_cases hl : r.info.isLeaving = true
  · rw [if_pos hl] at ho; cases ho
  rw [if_neg hl] at ho
  dsimp only at ho
  by_cases hh : hint < s.pool.length
  · rw [if_pos hh] at ho; cases ho
  rw [if_neg hh] at ho
  injection ho with ho
  subst ho
  exact ⟨r, by simpa using hl, own_out h hr (by intro e; cases e)⟩

theorem cancelLeave_ok (h : GInv P s) {c hint : Nat} (ho : cancelLeave P s c hint = some s') :
    ∃ r, r.info.isLeaving = true ∧ OwnSpec P s s' c r { r.info with status := .active } := by
  unfold cancelLeave at ho
  cases hr : s.cands c with
  | none => rw [hr] at ho; cases ho
  | some r =>
  rw [hr] at ho
  dsimp only at ho
  by_cases hl : r.info.isLeaving = false ∨ hint < s.pool.length
  · rw [if_pos hl] at ho; cases ho
  rw [if_neg hl] at ho
  cases hi : setInsert Bond.owner P.cfg.maxPool s.pool ⟨c, r.info.totalCounted⟩ with
  | mk o pool' =>
  rw [hi] at ho
  cases o with
  | added =>
    dsimp only at ho
    injection ho with ho
    subst ho
    exact ⟨r, by cases e : r.info.isLeaving <;> simp_all, own_in h hr hi⟩
  | present => cases ho
  | full => cases ho

theorem goOffline_ok (h : GInv P s) {c : Nat} (ho : goOffline s c = some s') :
    ∃ r, r.info.isActive = true ∧ OwnSpec P s s' c r { r.info with status := .idle } := by
  unfold goOffline at ho
  cases hr : s.cands c with
  | none => rw [hr] at ho; cases ho
  | some r =>
  rw [hr] at ho
  dsimp only at ho
  by_cases hl : r.info.isActive = false
  · rw [if_pos hl] at ho; cases ho
  rw [if_neg hl] at ho
  injection ho with ho
  subst ho
  exact ⟨r, by simpa using hl, own_out h hr (by intro e; cases e)⟩

theorem goOnline_ok (h : GInv P s) {c : Nat} (ho : goOnline P s c = some s') :
    ∃ r, r.info.isActive = false ∧ r.info.isLeaving = false ∧ OwnSpec P s s' c r { r.info with status := .active } := by
  unfold goOnline at ho
  cases hr : s.cands c with
  | none => rw [hr] at ho; cases ho
  | some r =>
  rw [hr] at ho
  dsimp only at ho
  by_cases hl : r.info.isActive = true ∨ r.info.isLeaving = true
  · rw [if_pos hl] at ho; cases ho
  rw [if_neg hl] at ho
  cases hi : setInsert Bond.owner P.cfg.maxPool s.pool ⟨c, r.info.totalCounted⟩ with
  | mk o pool' =>
  rw [hi] at ho
  cases o with
  | added =>
    dsimp only at ho
    injection ho with ho
    subst ho
    refine ⟨r, ?_, ?_, own_in h hr hi⟩
    · cases e : r.info.isActive
      · rfl
      · exact absurd (Or.inl e) hl
    · cases e : r.info.isLeaving
      · rfl
      · exact absurd (Or.inr e) hl
  | present => cases ho
  | full => cases ho

theorem candBondExtra_ok (h : GInv P s) {c more : Nat} (ho : candBondExtra P s c more = some s') :
    ∃ r, OwnSpec P s s' c r (r.info.bondExtra more) ∧ s'.clock = upd s.clock c (r.info.bond + more) ∧ s'.total = s.total + more ∧
      more ≤ s.candFree c := by
  unfold candBondExtra at ho
  cases hr : s.cands c with
  | none => rw [hr] at ho; cases ho
  | some r =>
  rw [hr] at ho
  dsimp only at ho
  by_cases hf : s.candFree c < more
  · rw [if_pos hf] at ho; cases ho
  rw [if_neg hf] at ho
  injection ho with ho
  subst ho
  refine ⟨r, own_bond h hr rfl rfl rfl rfl rfl rfl ?_ rfl rfl, rfl, rfl, ?_⟩
  · have := own_counted h hr
    show r.info.totalCounted + more = r.info.bond + more + _
    omega
  · omega

theorem candScheduleUnbond_ok (h : GInv P s) {c less : Nat} (ho : candScheduleUnbond s c less = some s') :
    ∃ r, r.info.request = none ∧ less < r.info.bond ∧ s.minCollator + less ≤ r.info.bond ∧
      OwnSpec P s s' c r { r.info with request := some ⟨less, s.era + s.delay⟩ } ∧ s'.clock = s.clock ∧ s'.total = s.total := by
  unfold candScheduleUnbond at ho
  cases hr : s.cands c with
  | none => rw [hr] at ho; cases ho
  | some r =>
  rw [hr] at ho
  dsimp only at ho
  unfold Info.scheduleUnbond at ho
  by_cases hc : r.info.request = none ∧ r.info.bond > less ∧ r.info.bond - less ≥ s.minCollator
  · rw [if_pos hc] at ho
    simp only [Option.map_some] at ho
    injection ho with ho
    subst ho
    exact ⟨r, hc.1, hc.2.1, by omega, own_request h hr, rfl, rfl⟩
  · rw [if_neg hc] at ho; cases ho

theorem candExecuteUnbond_ok (h : GInv P s) (hq : CReq s) {c : Nat} (ho : candExecuteUnbond P s c = some s') :
    ∃ r q, r.info.request = some q ∧ q.due ≤ s.era ∧ q.amount < r.info.bond ∧
      OwnSpec P s s' c r { r.info with bond := r.info.bond - q.amount, totalCounted := r.info.totalCounted - q.amount, request := none } ∧
      s'.clock = upd s.clock c (r.info.bond - q.amount) ∧ s'.total = s.total - q.amount := by
  unfold candExecuteUnbond at ho
  cases hr : s.cands c with
  | none => rw [hr] at ho; cases ho
  | some r =>
  rw [hr] at ho
  dsimp only at ho
  unfold Info.executeUnbond at ho
  cases hreq : r.info.request with
  | none => rw [hreq] at ho; cases ho
  | some q =>
  rw [hreq] at ho
  dsimp only at ho
  by_cases hd : q.due ≤ s.era
  · rw [if_pos hd] at ho
    dsimp only at ho
    injection ho with ho
    subst ho
    have hlt := hq c r q hr hreq
    refine ⟨r, q, hreq, hd, hlt, own_bond h hr rfl rfl rfl rfl rfl rfl ?_ rfl rfl, rfl, rfl⟩
    have := own_counted h hr
    show r.info.totalCounted - q.amount = r.info.bond - q.amount + _
    omega
  · rw [if_neg hd] at ho; cases ho

theorem candCancelUnbond_ok (h : GInv P s) {c : Nat} (ho : candCancelUnbond s c = some s') :
    ∃ r, r.info.request ≠ none ∧ OwnSpec P s s' c r { r.info with request := none } ∧ s'.clock = s.clock ∧ s'.total = s.total := by
  unfold candCancelUnbond at ho
  cases hr : s.cands c with
  | none => rw [hr] at ho; cases ho
  | some r =>
  rw [hr] at ho
  dsimp only at ho
  unfold Info.cancelUnbond at ho
  cases hreq : r.info.request with
  | none => rw [hreq] at ho; cases ho
  | some q =>
  rw [hreq] at ho
  simp only [Option.map_some] at ho
  injection ho with ho
  subst ho
  exact ⟨r, by simp [hreq], own_request h hr, rfl, rfl⟩

/-- Everything joining does. -/
structure JoinSpec (P : Par) (s s' : St) (c bond : Nat) : Prop where
  inv : GInv P s'
  wasNot : s.cands c = none
  notNom : s.noms c = none
  now : s'.cands = upd s.cands c (some ⟨Info.new bond, ⟨[], 0⟩, ⟨[], 0⟩, 0⟩)
  noms : s'.noms = s.noms
  nlock : s'.nlock = s.nlock
  reqs : s'.reqs = s.reqs
  same : SameP s s'
  lock : s'.clock = upd s.clock c bond
  total : s'.total = s.total + bond
  enough : bond ≤ s.free c
  min : s.minCollator ≤ bond

theorem join_ok (hP : P.Ok) (h : GInv P s) {c bond hint : Nat} {reg : Bool} (ho : joinCandidates P s c bond hint reg = some s') :
    JoinSpec P s s' c bond := by
  unfold joinCandidates at ho
  by_cases hc : (s.cands c).isSome ∨ (s.noms c).isSome ∨ bond < s.minCollator ∨ reg = false ∨ hint < s.pool.length
  · rw [if_pos hc] at ho; cases ho
  rw [if_neg hc] at ho
  have hcn : s.cands c = none := by
    cases e : s.cands c with
    | none => rfl
    | some r => exact absurd (Or.inl (by rw [e]; rfl)) hc
  have hnn : s.noms c = none := by
    cases e : s.noms c with
    | none => rfl
    | some r => exact absurd (Or.inr (Or.inl (by rw [e]; rfl))) hc
  cases hi : setInsert Bond.owner P.cfg.maxPool s.pool ⟨c, bond⟩ with
  | mk o pool' =>
  rw [hi] at ho
  cases o with
  | present => cases ho
  | full => cases ho
  | added =>
  dsimp only at ho
  by_cases hf : s.candFree c < bond
  · rw [if_pos hf] at ho; cases ho
  rw [if_neg hf] at ho
  injection ho with ho
  subst ho
  obtain ⟨p1, p2, p3, p4⟩ := pool_insert h.c.sorted hi
  have hci : CInv P.cfg c ((⟨Info.new bond, ⟨[], 0⟩, ⟨[], 0⟩, 0⟩ : CRec).toCand pool') := by
    refine ⟨⟨List.Pairwise.nil, List.Pairwise.nil, Nat.zero_le _, Nat.zero_le _, fun e => absurd rfl e, fun x hx => by cases hx⟩, List.nodup_nil,
      ⟨rfl, rfl, rfl, rfl, rfl, rfl, rfl, ?_, ?_⟩, ⟨p1, p2, fun _ => (p4 _).2 (Or.inl rfl), fun e => by cases e⟩⟩
    · exact ((capacity_empty hP.cfg.top_pos).2 rfl).symm
    · exact ((capacity_empty hP.cfg.bottom_pos).2 rfl).symm
  refine ⟨⟨h.n, h.c.put hci ?_ (upd_same _ _ _) (fun d hd => upd_ne _ _ hd), ?_, ?_, h.min⟩, hcn, hnn, rfl, rfl, rfl, rfl,
    ⟨rfl, rfl, rfl, rfl, rfl⟩, rfl, rfl, ?_, ?_⟩
  · intro x hx
    rw [p4]
    constructor
    · rintro (rfl | e)
      · exact absurd rfl hx
      · exact e
    · exact Or.inr
  · intro m d x
    rw [← h.link]
    show HasC (upd s.cands c _) d m x ↔ _
    rw [HasC_put]
    constructor
    · rintro (⟨rfl, e⟩ | ⟨_, e⟩)
      · simp [CRec.entries] at e
      · exact e
    · intro e
      refine Or.inr ⟨?_, e⟩
      intro e2
      subst e2
      obtain ⟨r, k, _⟩ := e
      rw [hcn] at k; cases k
  · intro m hm
    have hmc : m ≠ c := by
      intro e
      subst e
      have hm : (s.noms m).isSome = true := hm
      rw [hnn] at hm; cases hm
    exact (upd_ne _ _ hmc).trans (h.excl m hm)
  · unfold St.candFree at hf
    rw [hcn] at hf
    simp at hf
    exact hf
  · by_cases e : bond < s.minCollator
    · exact absurd (Or.inr (Or.inr (Or.inl e))) hc
    · omega

end Verif.Staking
