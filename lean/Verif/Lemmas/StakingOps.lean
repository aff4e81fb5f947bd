import Verif.Lemmas.StakingGlobal

/-! # Every call keeps the invariant of the ledger: nominating and bonding more -/

namespace Verif.Staking

variable {P : Par} {s s' : St}

theorem cand?_some {c : Nat} {k : Cand} (h : s.cand? c = some k) : ∃ r, s.cands c = some r ∧ k = r.toCand s.pool := by
  unfold St.cand? at h
  cases hr : s.cands c with
  | none => rw [hr] at h; cases h
  | some r => rw [hr] at h; injection h with h; exact ⟨r, rfl, h.symm⟩

theorem cand?_of {c : Nat} {r : CRec} (h : s.cands c = some r) : s.cand? c = some (r.toCand s.pool) := by
  unfold St.cand?; rw [h]; rfl

/-- The nominations after one candidate's record was replaced. -/
theorem HasC_put {cands : Nat → Option CRec} {c : Nat} {r' : CRec} {d n a : Nat} :
    HasC (upd cands c (some r')) d n a ↔ (d = c ∧ (⟨n, a⟩ : Bond) ∈ r'.entries) ∨ (d ≠ c ∧ HasC cands d n a) := by
  unfold HasC
  by_cases e : d = c
  · subst e
    rw [upd_same]
    constructor
    · rintro ⟨r, h1, h2⟩; injection h1 with h1; subst h1; exact Or.inl ⟨rfl, h2⟩
    · rintro (⟨_, h⟩ | ⟨h, _⟩)
      · exact ⟨r', rfl, h⟩
      · exact absurd rfl h
  · rw [upd_ne _ _ e]
    constructor
    · intro h; exact Or.inr ⟨e, h⟩
    · rintro (⟨h, _⟩ | ⟨_, h⟩)
      · exact absurd h e
      · exact h

/-- The bonds after one nominator's record was replaced. -/
theorem HasN_put {noms : Nat → Option Nomr} {n : Nat} {r' : Nomr} {m c a : Nat} :
    HasN (upd noms n (some r')) m c a ↔ (m = n ∧ (⟨c, a⟩ : Bond) ∈ r'.noms) ∨ (m ≠ n ∧ HasN noms m c a) := by
  unfold HasN
  by_cases e : m = n
  · subst e
    rw [upd_same]
    constructor
    · rintro ⟨r, h1, h2⟩; injection h1 with h1; subst h1; exact Or.inl ⟨rfl, h2⟩
    · rintro (⟨_, h⟩ | ⟨h, _⟩)
      · exact ⟨r', rfl, h⟩
      · exact absurd rfl h
  · rw [upd_ne _ _ e]
    constructor
    · intro h; exact Or.inr ⟨e, h⟩
    · rintro (⟨h, _⟩ | ⟨_, h⟩)
      · exact absurd h e
      · exact h

theorem HasC.of {cands : Nat → Option CRec} {c n a : Nat} {r : CRec} (hr : cands c = some r) :
    HasC cands c n a ↔ (⟨n, a⟩ : Bond) ∈ r.entries := by
  constructor
  · rintro ⟨r', h1, h2⟩; rw [hr] at h1; injection h1 with h1; subst h1; exact h2
  · intro h; exact ⟨r, hr, h⟩

theorem HasN.of {noms : Nat → Option Nomr} {c n a : Nat} {r : Nomr} (hr : noms n = some r) :
    HasN noms n c a ↔ (⟨c, a⟩ : Bond) ∈ r.noms := by
  constructor
  · rintro ⟨r', h1, h2⟩; rw [hr] at h1; injection h1 with h1; subst h1; exact h2
  · intro h; exact ⟨r, hr, h⟩

/-! ### nominate -/

theorem Nomr.new_eq (b : Bond) : Nomr.new b = ⟨[b], b.amount, 0⟩ := rfl

/-- What `nominateRecord` gives: the case distinction of `NSide.add`. -/
theorem nominateRecord_ok (hP : P.Ok) (h : GInv P s) (hmax : 1 ≤ P.maxPer) {n c amount hintN : Nat} {r' : Nomr}
    (ho : nominateRecord P s n c amount hintN = some r') :
    P.minPer ≤ amount ∧ (s.cands n = none) ∧ amount ≤ r'.total ∧
    ((s.noms n = none ∧ r' = ⟨[⟨c, amount⟩], amount, 0⟩ ∧ 1 ≤ P.maxPer) ∨
      (∃ r, s.noms n = some r ∧ r.noms.length < P.maxPer ∧ (∀ b ∈ r.noms, b.owner ≠ c) ∧ KeySorted Bond.owner r'.noms ∧
        r'.noms.Perm (⟨c, amount⟩ :: r.noms) ∧ r'.total = r.total + amount ∧ r'.less = r.less)) := by
  unfold nominateRecord at ho
  cases hn : s.noms n with
  | none =>
    rw [hn] at ho
    dsimp only at ho
    by_cases h1 : amount < s.minTotal
    · rw [if_pos h1] at ho; cases ho
    · rw [if_neg h1] at ho
      by_cases h2 : (s.cands n).isSome = true
      · rw [if_pos h2] at ho; cases ho
      · rw [if_neg h2] at ho
        injection ho with ho
        subst ho
        have := h.min
        refine ⟨by omega, by simpa using h2, Nat.le_refl _, Or.inl ⟨rfl, Nomr.new_eq _, hmax⟩⟩
  | some r =>
    rw [hn] at ho
    dsimp only at ho
    by_cases h1 : amount < P.minPer
    · rw [if_pos h1] at ho; cases ho
    · rw [if_neg h1] at ho
      by_cases h2 : hintN < r.noms.length
      · rw [if_pos h2] at ho; cases ho
      · rw [if_neg h2] at ho
        by_cases h3 : P.maxPer ≤ r.noms.length
        · rw [if_pos h3] at ho; cases ho
        · rw [if_neg h3] at ho
          have hnr := h.n.some n r hn
          unfold Nomr.add at ho
          rcases setInsert_cases hnr.sorted vecCap ⟨c, amount⟩ with ⟨_, e⟩ | ⟨a, b, hl, ha, hb, e⟩
          · rw [e] at ho; cases ho
          · have hP3 := hP.max
            rw [e, if_pos (by omega)] at ho
            injection ho with ho
            subst ho
            refine ⟨by omega, h.excl n (by rw [hn]; rfl), by simp, Or.inr ⟨r, rfl, by omega, ?_, ?_, ?_, rfl, rfl⟩⟩
            · intro x hx
              rw [hl] at hx
              rcases List.mem_append.1 hx with hx | hx
              · have := ha x hx; simp at this; omega
              · have := hb x hx; simp at this; omega
            · exact KeySorted.insert (by rw [← hl]; exact hnr.sorted) ha hb
            · show (a ++ _ :: b).Perm (_ :: r.noms)
              rw [hl]; exact List.perm_middle

/-- The bonds after a nomination was added. -/
theorem HasN_add (h : NSide P noms nlock reqs) {n c amount : Nat} {r' : Nomr}
    (hcase : (noms n = none ∧ r' = ⟨[⟨c, amount⟩], amount, 0⟩ ∧ 1 ≤ P.maxPer) ∨
      (∃ r, noms n = some r ∧ r.noms.length < P.maxPer ∧ (∀ b ∈ r.noms, b.owner ≠ c) ∧ KeySorted Bond.owner r'.noms ∧
        r'.noms.Perm (⟨c, amount⟩ :: r.noms) ∧ r'.total = r.total + amount ∧ r'.less = r.less)) {m d a : Nat} :
    HasN (upd noms n (some r')) m d a ↔ (m = n ∧ d = c ∧ a = amount) ∨ HasN noms m d a := by
  rw [HasN_put]
  rcases hcase with ⟨h1, rfl, _⟩ | ⟨r, hr, _, _, _, hp, _⟩
  · constructor
    · rintro (⟨e, hm⟩ | ⟨_, h2⟩)
      · simp at hm; exact Or.inl ⟨e, hm.1, hm.2⟩
      · exact Or.inr h2
    · rintro (⟨e, e2, e3⟩ | h2)
      · exact Or.inl ⟨e, by rw [e2, e3]; simp⟩
      · refine Or.inr ⟨?_, h2⟩
        rintro rfl
        obtain ⟨r, hr, _⟩ := h2
        rw [h1] at hr; cases hr
  · constructor
    · rintro (⟨rfl, hm⟩ | ⟨_, h2⟩)
      · rcases List.mem_cons.1 (hp.mem_iff.1 hm) with e | hm
        · injection e with e1 e2; exact Or.inl ⟨rfl, e1, e2⟩
        · exact Or.inr ⟨r, hr, hm⟩
      · exact Or.inr h2
    · rintro (⟨rfl, rfl, rfl⟩ | h2)
      · exact Or.inl ⟨rfl, hp.mem_iff.2 (List.mem_cons_self ..)⟩
      · by_cases e : m = n
        · subst e
          exact Or.inl ⟨rfl, hp.mem_iff.2 (List.mem_cons_of_mem _ ((HasN.of hr).1 h2))⟩
        · exact Or.inr ⟨e, h2⟩

/-- Everything a successful nomination does. -/
structure NominateSpec (P : Par) (s s' : St) (n c amount : Nat) : Prop where
  inv : GInv P s'
  free : s'.free = s.free
  era : s'.era = s.era
  ex : ∃ (k : Option Bond),
    (∀ x ∈ k, HasN s.noms x.owner c x.amount ∧ x.owner ≠ n ∧ x.amount ≤ amount) ∧
    (∀ m d a, HasN s'.noms m d a ↔ (m = n ∧ d = c ∧ a = amount) ∨ (HasN s.noms m d a ∧ ∀ x ∈ k, ¬ (m = x.owner ∧ d = c))) ∧
    (∀ d q, q ∈ s'.reqs d ↔ q ∈ s.reqs d ∧ ∀ x ∈ k, ¬ (q.nominator = x.owner ∧ d = c)) ∧
    s'.total + ((k.map Bond.amount).getD 0) = s.total + amount
  fresh : ∀ a, ¬ HasN s.noms n c a
  enough : amount ≤ s.nomFree n
  same : ∀ d r, s.cands d = some r → ∃ r', s'.cands d = some r' ∧ r'.info.bond = r.info.bond ∧ r'.info.request = r.info.request ∧
    r'.info.status = r.info.status ∧ r'.leak = r.leak ∧ (d ≠ c → r' = r)
  none : ∀ d, s.cands d = none → s'.cands d = none
  params : s'.delay = s.delay ∧ s'.minTotal = s.minTotal ∧ s'.minCollator = s.minCollator
  lock : s'.nlock n = s.nlock n + amount

theorem nominate_ok (hP : P.Ok) (hmax : 1 ≤ P.maxPer) (h : GInv P s) {n c amount hintC hintN : Nat}
    (ho : nominate P s n c amount hintC hintN = some s') : NominateSpec P s s' n c amount := by
  unfold nominate at ho
  by_cases hf : s.nomFree n < amount
  · rw [if_pos hf] at ho; cases ho
  rw [if_neg hf] at ho
  cases hrec : nominateRecord P s n c amount hintN with
  | none => rw [hrec] at ho; cases ho
  | some r' =>
  rw [hrec] at ho
  dsimp only at ho
  cases hk : s.cand? c with
  | none => rw [hk] at ho; cases ho
  | some k =>
  rw [hk] at ho
  dsimp only at ho
  obtain ⟨r, hr, rfl⟩ := cand?_some hk
  by_cases hh : hintC < (r.toCand s.pool).info.count
  · rw [if_pos hh] at ho; cases ho
  rw [if_neg hh] at ho
  cases hadd : addNomination P.cfg c (r.toCand s.pool) ⟨n, amount⟩ with
  | error e => rw [hadd] at ho; cases ho
  | ok res =>
  obtain ⟨k', inTop, less⟩ := res
  rw [hadd] at ho
  dsimp only at ho
  obtain ⟨hmin, hexcl, htot, hcase⟩ := nominateRecord_ok hP h hmax hrec
  have hfresh : ∀ a, ¬ HasN s.noms n c a := by
    rintro a ⟨r0, h0, h1⟩
    rcases hcase with ⟨h2, _⟩ | ⟨r1, h2, _, h3, _⟩
    · rw [h2] at h0; cases h0
    · rw [h2] at h0; injection h0 with h0; subst h0; exact h3 _ h1 rfl
  have hb : ∀ x ∈ (r.toCand s.pool).entries, x.owner ≠ n := by
    intro x hx e
    have : HasC s.cands c n x.amount := ⟨r, hr, by rw [← e]; exact hx⟩
    exact hfresh _ ((h.link n c x.amount).1 this)
  obtain ⟨hinv', hframe, hleak, kk, hkick, hless, hkb, hent⟩ := addNomination_ok hP.cfg (h.c.inv c r hr) (b := ⟨n, amount⟩) hb hadd
  have hkick' : k'.kicked = kk.toList := by rw [hkick]; rfl
  have hkm : ∀ x ∈ kk, HasN s.noms x.owner c x.amount ∧ x.owner ≠ n := by
    intro x hx
    have hx' : x ∈ (r.toCand s.pool).entries := List.mem_append_right _ (hkb x hx)
    exact ⟨(h.link _ _ _).1 ⟨r, hr, hx'⟩, hb x hx'⟩
  -- the state after kicking
  have hs1 : ∃ s1, (k'.kicked.foldl (fun s b => kickOne s c b) (s.putCand c k')) = s1 ∧
      NSide P s1.noms s1.nlock s1.reqs ∧ SameC (s.putCand c k') s1 ∧ (∀ m, (∀ x ∈ kk, m ≠ x.owner) → s1.noms m = s.noms m) ∧
      (∀ m d a, HasN s1.noms m d a ↔ HasN s.noms m d a ∧ ∀ x ∈ kk, ¬ (m = x.owner ∧ d = c)) ∧
      (∀ d q, q ∈ s1.reqs d ↔ q ∈ s.reqs d ∧ ∀ x ∈ kk, ¬ (q.nominator = x.owner ∧ d = c)) := by
    rw [hkick']
    cases kk with
    | none =>
      exact ⟨_, rfl, h.n, SameC.refl _, fun _ _ => rfl, fun m d a => by simp [St.putCand], fun d q => by simp [St.putCand]⟩
    | some x =>
      obtain ⟨⟨rx, hrx, hmx⟩, _⟩ := hkm x rfl
      have hn' : NSide P (s.putCand c k').noms (s.putCand c k').nlock (s.putCand c k').reqs := h.n
      have e := kickOne_eq hP hn' (c := c) (b := x) (r := rx) hrx hmx
      obtain ⟨a1, a2, a3, a4⟩ := takeOut_ok hn' (c := c) (b := x) (r := rx) hrx hmx
      refine ⟨_, rfl, ?_⟩
      simp only [Option.toList_some, List.foldl_cons, List.foldl_nil, e]
      refine ⟨a1, a2, fun m hm => a3 m (hm x rfl), ?_, ?_⟩
      · intro m d a
        rw [a4]
        simp [St.putCand]
      · intro d q
        show q ∈ upd s.reqs c (dropReq (s.reqs c) x.owner) d ↔ _
        by_cases e : d = c
        · subst e
          rw [upd_same, dropReq_mem (h.n.uniq d)]
          simp
        · rw [upd_ne _ _ e]
          simp [e]
  obtain ⟨s1, e1, hn1, hsame, hother, hhas, hreqs⟩ := hs1
  rw [e1] at ho
  have hnn : s1.noms n = s.noms n := hother n (fun x hx e => (hkm x hx).2 e.symm)
  by_cases hf2 : s1.nomFree n < amount ∨ r'.total < amount
  · rw [if_pos hf2] at ho; cases ho
  rw [if_neg hf2] at ho
  injection ho with ho
  have hcase1 : (s1.noms n = none ∧ r' = ⟨[⟨c, amount⟩], amount, 0⟩ ∧ 1 ≤ P.maxPer) ∨
      (∃ r, s1.noms n = some r ∧ r.noms.length < P.maxPer ∧ (∀ b ∈ r.noms, b.owner ≠ c) ∧ KeySorted Bond.owner r'.noms ∧
        r'.noms.Perm (⟨c, amount⟩ :: r.noms) ∧ r'.total = r.total + amount ∧ r'.less = r.less) := by rw [hnn]; exact hcase
  have hfinal := hn1.add (n := n) (c := c) (a := amount) (r' := r') hmin hcase1
  have hhasF : ∀ m d a, HasN s'.noms m d a ↔ (m = n ∧ d = c ∧ a = amount) ∨ (HasN s.noms m d a ∧ ∀ x ∈ kk, ¬ (m = x.owner ∧ d = c)) := by
    intro m d a
    rw [← ho]
    show HasN (upd s1.noms n (some r')) m d a ↔ _
    rw [HasN_add hn1 hcase1, hhas]
  have hcs := h.c.putCand hr hinv' hframe
  have hcands : s'.cands = (s.putCand c k').cands := by rw [← ho]; exact hsame.cands
  have hpool : s'.pool = (s.putCand c k').pool := by rw [← ho]; exact hsame.pool
  have hclock : s'.clock = s.clock := by rw [← ho]; exact hsame.clock
  have hdomN : ∀ m, (s'.noms m).isSome = true → m = n ∨ (s.noms m).isSome = true := by
    intro m hm
    cases hm2 : s'.noms m with
    | none => rw [hm2] at hm; cases hm
    | some rm =>
      have hside : NSide P s'.noms s'.nlock s'.reqs := by rw [← ho]; exact hfinal
      have hne := (hside.some m rm hm2).ne
      cases hl : rm.noms with
      | nil => exact absurd hl hne
      | cons b0 l0 =>
        have : HasN s'.noms m b0.owner b0.amount := ⟨rm, hm2, by rw [hl]; exact List.mem_cons_self ..⟩
        rcases (hhasF _ _ _).1 this with ⟨e, _⟩ | ⟨⟨r0, h0, _⟩, _⟩
        · exact Or.inl e
        · rw [h0]; exact Or.inr rfl
  have hne : n ≠ c := by intro e; rw [e, hr] at hexcl; cases hexcl
  have hamt : ∀ x ∈ kk, x.amount ≤ amount := by
    intro x hx
    have hl2 : less = some x.amount := by
      rw [hless]
      cases kk with
      | none => cases hx
      | some y => simp at hx; subst hx; rfl
    have hxb := hkb x hx
    unfold addNomination at hadd
    have hle := (h.c.inv c r hr).bottom_le_lowestTop hP.cfg x hxb
    by_cases g1 : (r.toCand s.pool).info.topCap = .full
    · rw [if_pos g1] at hadd
      by_cases g2 : (r.toCand s.pool).info.lowestTop < amount
      · omega
      · rw [if_neg g2] at hadd
        by_cases g3 : (r.toCand s.pool).info.bottomCap = .full
        · rw [if_pos g3] at hadd
          by_cases g4 : amount > (r.toCand s.pool).info.lowestBottom
          · rw [if_pos g4] at hadd
            injection hadd with hadd
            obtain ⟨_, hadd⟩ := Prod.mk.inj hadd
            obtain ⟨_, hadd⟩ := Prod.mk.inj hadd
            rw [hl2] at hadd
            injection hadd with hadd
            omega
          · rw [if_neg g4] at hadd; cases hadd
        · rw [if_neg g3] at hadd
          injection hadd with hadd
          obtain ⟨_, hadd⟩ := Prod.mk.inj hadd
          obtain ⟨_, hadd⟩ := Prod.mk.inj hadd
          rw [hl2] at hadd; cases hadd
    · rw [if_neg g1] at hadd
      injection hadd with hadd
      obtain ⟨_, hadd⟩ := Prod.mk.inj hadd
      obtain ⟨_, hadd⟩ := Prod.mk.inj hadd
      rw [hl2] at hadd; cases hadd
  refine ⟨⟨by rw [← ho]; exact hfinal, by rw [hcands, hpool, hclock]; exact hcs, ?_, ?_, ?_⟩, ?_, ?_, ⟨kk, ?_, hhasF, by rw [← ho]; exact hreqs, ?_⟩, hfresh, by omega, ?_, ?_, ?_, ?_⟩
  · intro m d a
    rw [hhasF, hcands]
    show HasC (upd s.cands c (some k'.toRec)) d m a ↔ _
    rw [HasC_put]
    have hmem : ∀ (x : Bond), x ∈ k'.entries ↔ (x = ⟨n, amount⟩ ∨ x ∈ r.entries) ∧ ∀ y ∈ kk, x.owner ≠ y.owner := by
      intro x
      have hperm := hent.mem_iff (a := x)
      have hu : Uniq (kk.toList ++ k'.entries) := by
        have hub : Uniq ((⟨n, amount⟩ : Bond) :: (r.toCand s.pool).entries) := by
          refine List.nodup_cons.2 ⟨?_, (h.c.inv c r hr).uniq⟩
          intro hm
          obtain ⟨x, hx, e⟩ := List.mem_map.1 hm
          exact hb x hx e
        exact hub.perm hent
      constructor
      · intro hx
        refine ⟨?_, ?_⟩
        · rcases List.mem_cons.1 (hperm.1 (List.mem_append_right _ hx)) with e | e
          · exact Or.inl e
          · exact Or.inr e
        · intro y hy e
          have hy' : y ∈ kk.toList := by
            cases kk with
            | none => cases hy
            | some z => simp at hy; subst hy; simp
          unfold Uniq at hu
          rw [List.map_append] at hu
          exact (List.nodup_append.1 hu).2.2 _ (List.mem_map_of_mem hy') _ (List.mem_map_of_mem hx) e.symm
      · rintro ⟨hx, hy⟩
        have : x ∈ kk.toList ++ k'.entries := hperm.2 (by
          rcases hx with e | e
          · rw [e]; exact List.mem_cons_self ..
          · exact List.mem_cons_of_mem _ e)
        rcases List.mem_append.1 this with hk1 | hk1
        · exact absurd rfl (hy x (by simpa using hk1))
        · exact hk1
    have e2 : k'.toRec.entries = k'.entries := rfl
    rw [e2, hmem]
    constructor
    · rintro (⟨rfl, (e | e), hy⟩ | ⟨hd, hc0⟩)
      · injection e with e1 e2; exact Or.inl ⟨e1, rfl, e2⟩
      · exact Or.inr ⟨(h.link m d a).1 ⟨r, hr, e⟩, fun x hx e3 => hy x hx e3.1⟩
      · exact Or.inr ⟨(h.link m d a).1 hc0, fun x _ e3 => hd e3.2⟩
    · rintro (⟨rfl, rfl, rfl⟩ | ⟨hn0, hy⟩)
      · exact Or.inl ⟨rfl, Or.inl rfl, fun x hx e => (hkm x hx).2 e.symm⟩
      · by_cases hd : d = c
        · subst hd
          exact Or.inl ⟨rfl, Or.inr ((HasC.of hr).1 ((h.link m d a).2 hn0)), fun x hx e => hy x hx ⟨e, rfl⟩⟩
        · exact Or.inr ⟨hd, (h.link m d a).2 hn0⟩
  · intro m hm
    rw [hcands]
    show upd s.cands c _ m = none
    rcases hdomN m hm with rfl | hm
    · rw [upd_ne _ _ hne]; exact hexcl
    · have := h.excl m hm
      have hmc : m ≠ c := by intro e; rw [e, hr] at this; cases this
      rw [upd_ne _ _ hmc]; exact this
  · rw [← ho]; show P.minPer ≤ s1.minTotal; rw [hsame.minTotal]; exact h.min
  · rw [← ho]; exact hsame.free
  · rw [← ho]; exact hsame.era
  · intro x hx; exact ⟨(hkm x hx).1, (hkm x hx).2, hamt x hx⟩
  · rw [← ho]
    show s1.total + (amount - less.getD 0) + _ = _
    rw [hsame.total, hless]
    show s.total + _ + _ = _
    cases kk with
    | none => simp
    | some x =>
      have := hamt x rfl
      simp; omega
  · intro d r0 hd
    rw [hcands]
    by_cases e : d = c
    · subst e
      rw [hr] at hd
      injection hd with hd
      subst hd
      exact ⟨k'.toRec, upd_same _ _ _, hframe.bond, hframe.request, hframe.status, hleak, fun e => absurd rfl e⟩
    · exact ⟨r0, (upd_ne _ _ e).trans hd, rfl, rfl, rfl, rfl, fun _ => rfl⟩
  · intro d hd
    rw [hcands]
    have e : d ≠ c := by intro e; rw [e, hr] at hd; cases hd
    exact (upd_ne _ _ e).trans hd
  · rw [← ho]; exact ⟨hsame.delay, hsame.minTotal, hsame.minCollator⟩
  · rw [← ho]
    show upd s1.nlock n r'.total n = _
    rw [upd_same]
    rcases hcase with ⟨g1, g2, _⟩ | ⟨r0, g1, _, _, _, _, g2, _⟩
    · rw [g2, h.n.none n g1]; simp
    · rw [g2, (h.n.some n r0 g1).lock]

end Verif.Staking
