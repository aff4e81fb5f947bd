import Verif.Lemmas.StakingOps

/-! # Every call keeps the invariant of the ledger: bonding more, requests -/

namespace Verif.Staking

variable {P : Par} {s s' : St}

/-- Candidates keep everything but their nominations and what is computed from them. -/
def CandsKept (s s' : St) (f : Nat → Nat → Nat) : Prop :=
  (∀ d r, s.cands d = some r → ∃ r', s'.cands d = some r' ∧ r'.info.bond = r.info.bond ∧ r'.info.request = r.info.request ∧
    r'.info.status = r.info.status ∧ r'.leak = f d r.leak) ∧
  (∀ d, s.cands d = none → s'.cands d = none)

theorem CandsKept.refl (s : St) : CandsKept s s (fun _ l => l) :=
  ⟨fun d r h => ⟨r, h, rfl, rfl, rfl, rfl⟩, fun d h => h⟩

/-- Nothing but candidates' records, nominators' records, requests, the pool, locks and the total changed. -/
structure SameP (s s' : St) : Prop where
  era : s'.era = s.era
  delay : s'.delay = s.delay
  minTotal : s'.minTotal = s.minTotal
  minCollator : s'.minCollator = s.minCollator
  free : s'.free = s.free

theorem SameP.refl (s : St) : SameP s s := ⟨rfl, rfl, rfl, rfl, rfl⟩
theorem SameP.trans {s t u : St} (h : SameP s t) (g : SameP t u) : SameP s u :=
  ⟨g.era.trans h.era, g.delay.trans h.delay, g.minTotal.trans h.minTotal, g.minCollator.trans h.minCollator, g.free.trans h.free⟩

/-- Replacing one candidate's nominations (and the pool entry) keeps bonds, requests and states. -/
theorem CandsKept.put {c : Nat} {r : CRec} {k' : Cand} (hr : s.cands c = some r) (hf : Frame c (r.toCand s.pool) k') {cands' : Nat → Option CRec}
    (hc : cands' = upd s.cands c (some k'.toRec)) (he : s'.cands = cands') :
    CandsKept s s' (fun d l => if d = c then k'.leak else l) := by
  subst hc
  constructor
  · intro d r0 hd
    rw [he]
    by_cases e : d = c
    · subst e
      rw [hr] at hd
      injection hd with hd
      subst hd
      exact ⟨k'.toRec, upd_same _ _ _, hf.bond, hf.request, hf.status, by simp [Cand.toRec]⟩
    · exact ⟨r0, (upd_ne _ _ e).trans hd, rfl, rfl, rfl, by simp [e]⟩
  · intro d hd
    rw [he]
    have e : d ≠ c := by intro e; rw [e, hr] at hd; cases hd
    exact (upd_ne _ _ e).trans hd

theorem mem_adjust {l : List Bond} (u : Uniq l) {d : Bond} (hd : d ∈ l) {f : Nat → Nat} {x : Bond} :
    x ∈ adjust l d.owner f ↔ x = ⟨d.owner, f d.amount⟩ ∨ (x ∈ l ∧ x.owner ≠ d.owner) := by
  rw [(adjust_split u hd f).mem_iff, List.mem_cons, without_mem]

/-- The link after both sides changed one bond. -/
theorem link_adjust (h : GInv P s) {n c a : Nat} {r : CRec} {q : Nomr} (hr : s.cands c = some r) (hq : s.noms n = some q)
    (hc : (⟨n, a⟩ : Bond) ∈ r.entries) (hn : (⟨c, a⟩ : Bond) ∈ q.noms) {f : Nat → Nat} {r' : CRec} {q' : Nomr}
    (hr' : r'.entries.Perm (adjust r.entries n f)) (hq' : q'.noms = adjust q.noms c f) :
    (∀ m d x, HasC (upd s.cands c (some r')) d m x ↔ HasN (upd s.noms n (some q')) m d x) ∧
    (∀ m d x, HasN (upd s.noms n (some q')) m d x ↔ (m = n ∧ d = c ∧ x = f a) ∨ (HasN s.noms m d x ∧ ¬ (m = n ∧ d = c))) := by
  have hur : Uniq r.entries := (h.c.inv c r hr).uniq
  have huq : Uniq q.noms := (h.n.some n q hq).sorted.uniq
  have h2 : ∀ m d x, HasN (upd s.noms n (some q')) m d x ↔ (m = n ∧ d = c ∧ x = f a) ∨ (HasN s.noms m d x ∧ ¬ (m = n ∧ d = c)) := by
    intro m d x
    rw [HasN_put, hq', mem_adjust huq hn]
    constructor
    · rintro (⟨rfl, e | ⟨e, e2⟩⟩ | ⟨e, e2⟩)
      · injection e with e1 e2; exact Or.inl ⟨rfl, e1, e2⟩
      · exact Or.inr ⟨⟨q, hq, e⟩, fun e3 => e2 e3.2⟩
      · exact Or.inr ⟨e2, fun e3 => e e3.1⟩
    · rintro (⟨rfl, rfl, rfl⟩ | ⟨e, e2⟩)
      · exact Or.inl ⟨rfl, Or.inl rfl⟩
      · by_cases hm : m = n
        · subst hm
          exact Or.inl ⟨rfl, Or.inr ⟨(HasN.of hq).1 e, fun e3 => e2 ⟨rfl, e3⟩⟩⟩
        · exact Or.inr ⟨hm, e⟩
  refine ⟨?_, h2⟩
  intro m d x
  rw [h2, HasC_put, hr'.mem_iff, mem_adjust hur hc]
  constructor
  · rintro (⟨rfl, e | ⟨e, e2⟩⟩ | ⟨e, e2⟩)
    · injection e with e1 e2; exact Or.inl ⟨e1, rfl, e2⟩
    · exact Or.inr ⟨(h.link m d x).1 ⟨r, hr, e⟩, fun e3 => e2 e3.1⟩
    · exact Or.inr ⟨(h.link m d x).1 e2, fun e3 => e e3.2⟩
  · rintro (⟨rfl, rfl, rfl⟩ | ⟨e, e2⟩)
    · exact Or.inl ⟨rfl, Or.inl rfl⟩
    · have e3 := (h.link m d x).2 e
      by_cases hd : d = c
      · subst hd
        exact Or.inl ⟨rfl, Or.inr ⟨(HasC.of hr).1 e3, fun e4 => e2 ⟨e4, rfl⟩⟩⟩
      · exact Or.inr ⟨hd, e3⟩

/-- No account becomes both, when candidates and nominators stay the same accounts. -/
theorem excl_keep (h : GInv P s) {c n : Nat} {r r' : CRec} {q q' : Nomr} (hr : s.cands c = some r) (hq : s.noms n = some q) (m : Nat)
    (hm : (upd s.noms n (some q') m).isSome = true) : upd s.cands c (some r') m = none := by
  have hs : (s.noms m).isSome = true := by
    by_cases e : m = n
    · subst e; rw [hq]; rfl
    · rw [upd_ne _ _ e] at hm; exact hm
  have hc := h.excl m hs
  have hmc : m ≠ c := by intro e; rw [e, hr] at hc; cases hc
  rw [upd_ne _ _ hmc]; exact hc

/-! ### bond_extra -/

/-- Writing the same pool entry once more changes nothing. -/
theorem updateActive_again {cfg : Cfg} {c : Nat} {k : Cand} (h : CInv cfg c k) (ha : k.info.isActive = true) :
    CInv cfg c { k with pool := updateActive cfg k.pool c k.info.totalCounted } ∧
    ∀ x : Bond, x ∈ updateActive cfg k.pool c k.info.totalCounted ↔ x ∈ k.pool := by
  obtain ⟨a1, a2, a3⟩ := updateActive_spec (cfg := cfg) h.pool.sorted h.pool.len c k.info.totalCounted ⟨_, h.pool.yes ha, rfl⟩
  have hiff : ∀ x : Bond, x ∈ updateActive cfg k.pool c k.info.totalCounted ↔ x ∈ k.pool := by
    intro x
    rw [a3]
    constructor
    · rintro (rfl | ⟨h1, _⟩)
      · exact h.pool.yes ha
      · exact h1
    · intro hx
      by_cases e : x.owner = c
      · exact Or.inl (h.pool.sorted.unique hx (h.pool.yes ha) e)
      · exact Or.inr ⟨hx, e⟩
  refine ⟨⟨h.shape, h.uniq, ⟨h.cache.topTotal, h.cache.botTotal, h.cache.counted, h.cache.count, h.cache.lowestTop, h.cache.highestBottom,
    h.cache.lowestBottom, h.cache.topCap, h.cache.bottomCap⟩, ⟨a1, by simp only [a2]; exact h.pool.len, fun _ => (hiff _).2 (h.pool.yes ha), fun hf => ?_⟩⟩, hiff⟩
  rw [show ({ k with pool := updateActive cfg k.pool c k.info.totalCounted } : Cand).info.isActive = k.info.isActive from rfl, ha] at hf
  cases hf

/-- Everything a successful `bond_extra` does. -/
structure BondExtraSpec (P : Par) (s s' : St) (n c more : Nat) : Prop where
  inv : GInv P s'
  same : SameP s s'
  reqs : s'.reqs = s.reqs
  bond : ∃ a, HasN s.noms n c a ∧
    ∀ m d x, HasN s'.noms m d x ↔ (m = n ∧ d = c ∧ x = a + more) ∨ (HasN s.noms m d x ∧ ¬ (m = n ∧ d = c))
  total : s'.total = s.total + more
  noRevoke : revokePending s c n = false
  enough : more ≤ s.nomFree n
  cands : CandsKept s s' (fun _ l => l)
  lock : s'.nlock n = s.nlock n + more

theorem bondExtra_ok (hP : P.Ok) (h : GInv P s) {n c more : Nat} (ho : bondExtra P s n c more = some s') :
    BondExtraSpec P s s' n c more := by
  unfold bondExtra at ho
  by_cases hrev : revokePending s c n = true
  · rw [if_pos hrev] at ho; cases ho
  rw [if_neg hrev] at ho
  cases hq : s.noms n with
  | none => rw [hq] at ho; cases ho
  | some q =>
  rw [hq] at ho
  dsimp only at ho
  cases hb : findOwner q.noms c with
  | none => rw [hb] at ho; cases ho
  | some b =>
  rw [hb] at ho
  dsimp only at ho
  by_cases hf : s.nomFree n < more ∨ q.total + more < more
  · rw [if_pos hf] at ho; cases ho
  rw [if_neg hf] at ho
  cases hk : s.cand? c with
  | none => rw [hk] at ho; cases ho
  | some k =>
  rw [hk] at ho
  dsimp only at ho
  obtain ⟨r, hr, rfl⟩ := cand?_some hk
  obtain ⟨hbm, hbo⟩ := findOwner_some hb
  obtain ⟨bo, a⟩ := b
  simp only at hbo
  subst hbo
  have hN : HasN s.noms n bo a := ⟨q, hq, hbm⟩
  have hC : (⟨n, a⟩ : Bond) ∈ r.entries := (HasC.of hr).1 ((h.link n bo a).2 hN)
  obtain ⟨k', t, e, hinv, hfr, hleak, _, hperm⟩ := increaseNomination_ok hP.cfg (h.c.inv bo r hr) (d := ⟨n, a⟩) hC more
  dsimp only at e ho
  rw [e] at ho
  dsimp only at ho
  -- the second pool update
  have hk2 : ∃ k'', (if k'.info.isActive = true ∧ (r.toCand s.pool).info.totalCounted ≠ k'.info.totalCounted
                     then { k' with pool := updateActive P.cfg k'.pool bo k'.info.totalCounted } else k') = k'' ∧
      CInv P.cfg bo k'' ∧ Frame bo (r.toCand s.pool) k'' ∧ k''.toRec = k'.toRec := by
    by_cases hc : k'.info.isActive = true ∧ (r.toCand s.pool).info.totalCounted ≠ k'.info.totalCounted
    · rw [if_pos hc]
      obtain ⟨i1, i2⟩ := updateActive_again hinv hc.1
      exact ⟨_, rfl, i1, ⟨hfr.bond, hfr.request, hfr.status, fun x hx => (i2 x).trans (hfr.pool x hx)⟩, rfl⟩
    · rw [if_neg hc]
      exact ⟨_, rfl, hinv, hfr, rfl⟩
  obtain ⟨k'', ek, hinv2, hfr2, hrec⟩ := hk2
  rw [ek] at ho
  injection ho with ho
  have hent : k''.toRec.entries.Perm (adjust r.entries n (· + more)) := by rw [hrec]; exact hperm
  obtain ⟨l1, l2⟩ := link_adjust h hr hq hC hbm (f := (· + more)) (r' := k''.toRec)
    (q' := { q with noms := adjust q.noms bo (· + more), total := q.total + more }) hent rfl
  have hcs := h.c.putCand hr hinv2 hfr2
  have hns := h.n.adjust (n := n) (c := bo) hq hbm rfl (f := (· + more)) (t := q.total + more)
    (by show q.total + more + a = q.total + (a + more); omega)
    (by have := (h.n.some n q hq).min _ hbm; show P.minPer ≤ a + more; dsimp only at this; omega)
    (by
      intro x hx hxn
      have hxr : x.revoke = false := by
        cases hxr : x.revoke with
        | false => rfl
        | true =>
          exfalso
          apply hrev
          unfold revokePending
          rw [List.any_eq_true]
          exact ⟨x, hx, by simp [Req.by, hxn, hxr]⟩
      refine ⟨hxr, ?_⟩
      obtain ⟨r0, b0, g1, g2, g3, _, g5⟩ := h.n.req bo x hx
      rw [hxn, hq] at g1
      injection g1 with g1
      subst g1
      have : b0 = ⟨bo, a⟩ := (h.n.some n q hq).sorted.uniq.eq g2 hbm g3
      subst this
      have := g5 hxr
      show _ ≤ a + more
      dsimp only at this
      omega)
  subst ho
  refine ⟨⟨hns, hcs, l1, ?_, h.min⟩, ⟨rfl, rfl, rfl, rfl, rfl⟩, rfl, ⟨a, hN, l2⟩, rfl, by simpa using hrev, ?_, ?_, ?_⟩
  · intro m hm; exact excl_keep h hr hq m hm
  · omega
  · have hh := CandsKept.put (s' := { ((((s.lockNom n (q.total + more)).putCand bo k'').putNom n
      (some { q with noms := adjust q.noms bo (· + more), total := q.total + more }))) with total := s.total + more }) hr hfr2 rfl rfl
    refine ⟨?_, hh.2⟩
    intro d r0 hd
    obtain ⟨r1, g1, g2, g3, g4, g5⟩ := hh.1 d r0 hd
    refine ⟨r1, g1, g2, g3, g4, ?_⟩
    rw [g5]
    dsimp only
    by_cases e : d = bo
    · subst e
      rw [hr] at hd
      injection hd with hd
      subst hd
      have : k''.leak = k'.leak := congrArg CRec.leak hrec
      rw [if_pos rfl, this, hleak]; rfl
    · rw [if_neg e]
  · show upd s.nlock n (q.total + more) n = _
    rw [upd_same, (h.n.some n q hq).lock]

/-! ### Requests -/

/-- A change of records and requests that keeps all bonds keeps the invariant. -/
theorem GInv.reqChange (h : GInv P s) {n : Nat} {q : Nomr} (hq : s.noms n = some q) {v : Nat} {reqs' : Nat → List Req}
    (hn : NSide P (upd s.noms n (some { q with less := v })) s.nlock reqs') :
    GInv P ({ s with reqs := reqs' }.putNom n (some { q with less := v })) ∧
    ∀ m d x, HasN (upd s.noms n (some { q with less := v })) m d x ↔ HasN s.noms m d x := by
  have hh : ∀ m d x, HasN (upd s.noms n (some { q with less := v })) m d x ↔ HasN s.noms m d x := by
    intro m d x
    rw [HasN_put]
    constructor
    · rintro (⟨rfl, e⟩ | ⟨_, e⟩)
      · exact ⟨q, hq, e⟩
      · exact e
    · intro e
      by_cases hm : m = n
      · subst hm; exact Or.inl ⟨rfl, (HasN.of hq).1 e⟩
      · exact Or.inr ⟨hm, e⟩
  refine ⟨⟨hn, h.c, ?_, ?_, h.min⟩, hh⟩
  · intro m d x
    exact (h.link m d x).trans (hh m d x).symm
  · intro m hm
    refine h.excl m ?_
    by_cases e : m = n
    · subst e; rw [hq]; rfl
    · have : ({ s with reqs := reqs' }.putNom n (some { q with less := v })).noms m = s.noms m := upd_ne _ _ e
      rw [this] at hm; exact hm

/-- What scheduling does: either the request is appended, or the list was full and nothing happens. -/
structure ScheduleSpec (P : Par) (s s' : St) (n c : Nat) (q : Req) : Prop where
  inv : GInv P s'
  same : SameC s s'
  locks : s'.nlock = s.nlock
  bonds : ∀ m d x, HasN s'.noms m d x ↔ HasN s.noms m d x
  isNew : ∀ x ∈ s.reqs c, x.nominator ≠ n
  reqs : s'.reqs = upd s.reqs c (if (s.reqs c).length < P.maxPer then s.reqs c ++ [q] else s.reqs c)
  full : P.maxPer ≤ (s.reqs c).length → s' = s

theorem schedule_core (h : GInv P s) {n c : Nat} {r : Nomr} (hr : s.noms n = some r) {b : Bond} (hb : findOwner r.noms c = some b)
    (hno : ¬ (s.reqs c).any (Req.by n) = true) {q : Req} (hqn : q.nominator = n) (h1 : q.revoke = true → q.amount = b.amount)
    (h2 : q.revoke = false → q.amount + P.minPer ≤ b.amount)
    (ho : (if (s.reqs c).length < P.maxPer then
        some ((s.putReqs c (s.reqs c ++ [q])).putNom n (some { r with less := r.less + q.amount })) else some s) = some s') :
    ScheduleSpec P s s' n c q := by
  obtain ⟨hbm, hbo⟩ := findOwner_some hb
  have hno' := any_by.1 (Bool.eq_false_iff.2 hno)
  by_cases hl : (s.reqs c).length < P.maxPer
  · rw [if_pos hl] at ho
    injection ho with ho
    have hn := h.n.push hr hbm hbo hqn hno' h1 h2 hl
    obtain ⟨g1, g2⟩ := h.reqChange hr hn
    subst ho
    refine ⟨g1, ⟨rfl, rfl, rfl, rfl, rfl, rfl, rfl, rfl, rfl⟩, rfl, g2, hno', ?_, fun e => by omega⟩
    rw [if_pos hl]; rfl
  · rw [if_neg hl] at ho
    injection ho with ho
    subst ho
    refine ⟨h, SameC.refl _, rfl, fun _ _ _ => Iff.rfl, hno', ?_, fun _ => rfl⟩
    rw [if_neg hl, upd_self]

theorem scheduleRevoke_ok (h : GInv P s) {n c : Nat} (ho : scheduleRevoke P s n c = some s') :
    ∃ a, HasN s.noms n c a ∧ ScheduleSpec P s s' n c ⟨n, true, a, s.era + s.delay⟩ := by
  unfold scheduleRevoke at ho
  cases hr : s.noms n with
  | none => rw [hr] at ho; cases ho
  | some r =>
  rw [hr] at ho
  dsimp only at ho
  by_cases hno : (s.reqs c).any (Req.by n) = true
  · rw [if_pos hno] at ho; cases ho
  rw [if_neg hno] at ho
  cases hb : findOwner r.noms c with
  | none => rw [hb] at ho; cases ho
  | some b =>
  rw [hb] at ho
  dsimp only at ho
  obtain ⟨hbm, hbo⟩ := findOwner_some hb
  refine ⟨b.amount, ⟨r, hr, by rw [← hbo]; exact hbm⟩, schedule_core h hr hb hno rfl (fun _ => rfl) (fun e => by cases e) ho⟩

theorem scheduleDecrease_ok (h : GInv P s) {n c less : Nat} (ho : scheduleDecrease P s n c less = some s') :
    ∃ a, HasN s.noms n c a ∧ less < a ∧ less + P.minPer ≤ a ∧ ScheduleSpec P s s' n c ⟨n, false, less, s.era + s.delay⟩ := by
  unfold scheduleDecrease at ho
  cases hr : s.noms n with
  | none => rw [hr] at ho; cases ho
  | some r =>
  rw [hr] at ho
  dsimp only at ho
  by_cases hno : (s.reqs c).any (Req.by n) = true
  · rw [if_pos hno] at ho; cases ho
  rw [if_neg hno] at ho
  cases hb : findOwner r.noms c with
  | none => rw [hb] at ho; cases ho
  | some b =>
  rw [hb] at ho
  dsimp only at ho
  obtain ⟨hbm, hbo⟩ := findOwner_some hb
  by_cases h1 : b.amount ≤ less
  · rw [if_pos h1] at ho; cases ho
  rw [if_neg h1] at ho
  by_cases h2 : b.amount - less < P.minPer
  · rw [if_pos h2] at ho; cases ho
  rw [if_neg h2] at ho
  by_cases h3 : r.total - r.less - s.minTotal < less
  · rw [if_pos h3] at ho; cases ho
  rw [if_neg h3] at ho
  refine ⟨b.amount, ⟨r, hr, by rw [← hbo]; exact hbm⟩, by omega, by omega,
    schedule_core h hr hb hno rfl (fun e => by cases e) (fun _ => by show less + P.minPer ≤ b.amount; omega) ho⟩

/-- Everything a successful cancellation does. -/
structure CancelSpec (P : Par) (s s' : St) (n c : Nat) : Prop where
  inv : GInv P s'
  same : SameC s s'
  locks : s'.nlock = s.nlock
  bonds : ∀ m d x, HasN s'.noms m d x ↔ HasN s.noms m d x
  was : ∃ q ∈ s.reqs c, q.nominator = n
  reqs : s'.reqs = upd s.reqs c (dropReq (s.reqs c) n)

theorem cancelRequest_ok (h : GInv P s) {n c : Nat} (ho : cancelRequest s n c = some s') : CancelSpec P s s' n c := by
  unfold cancelRequest at ho
  cases hr : s.noms n with
  | none => rw [hr] at ho; cases ho
  | some r =>
  rw [hr] at ho
  dsimp only at ho
  cases hq : findReq (s.reqs c) n with
  | none => rw [hq] at ho; cases ho
  | some q =>
  rw [hq] at ho
  dsimp only at ho
  injection ho with ho
  obtain ⟨hqm, hqn⟩ := findReq_some hq
  obtain ⟨r0, b, g1, g2, g3, _⟩ := h.n.req c q hqm
  rw [hqn, hr] at g1
  injection g1 with g1
  subst g1
  have hn := h.n.drop hr ⟨b, g2, g3⟩
  have hp : pend (s.reqs c) n = q.amount := by unfold pend; rw [hq]; rfl
  rw [hp] at hn
  obtain ⟨g1, g2⟩ := h.reqChange hr hn
  subst ho
  exact ⟨g1, ⟨rfl, rfl, rfl, rfl, rfl, rfl, rfl, rfl, rfl⟩, rfl, g2, ⟨q, hqm, hqn⟩, rfl⟩

end Verif.Staking
