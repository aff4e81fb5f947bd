import Verif.Lemmas.StakingNom

/-! # The invariant of the whole ledger -/

namespace Verif.Staking

/-- A candidate's record, as its functions see it. -/
def CRec.toCand (r : CRec) (pool : List Bond) : Cand := ⟨r.info, r.top, r.bottom, pool, [], r.leak⟩

/-- All nominations of a candidate. -/
def CRec.entries (r : CRec) : List Bond := r.top.list ++ r.bottom.list

/-- The record kept of a candidate. -/
def Cand.toRec (k : Cand) : CRec := ⟨k.info, k.top, k.bottom, k.leak⟩

/-- The invariant of the candidates, the pool and the collators' locks. -/
structure CSide (P : Par) (cands : Nat → Option CRec) (pool : List Bond) (clock : Nat → Nat) : Prop where
  inv : ∀ c r, cands c = some r → CInv P.cfg c (r.toCand pool)
  lock : ∀ c, clock c = ((cands c).map (fun r => r.info.bond)).getD 0
  dom : ∀ x ∈ pool, (cands x.owner).isSome = true
  sorted : KeySorted Bond.owner pool
  len : pool.length ≤ P.cfg.maxPool

/-- A candidate has a nomination of that amount of that nominator, by its own record. -/
def HasC (cands : Nat → Option CRec) (c n a : Nat) : Prop := ∃ r, cands c = some r ∧ (⟨n, a⟩ : Bond) ∈ r.entries

/-- The invariant of the ledger. -/
structure GInv (P : Par) (s : St) : Prop where
  n : NSide P s.noms s.nlock s.reqs
  c : CSide P s.cands s.pool s.clock
  link : ∀ n c a, HasC s.cands c n a ↔ HasN s.noms n c a
  excl : ∀ n, (s.noms n).isSome = true → s.cands n = none
  min : P.minPer ≤ s.minTotal

variable {P : Par} {s : St}

theorem GInv.init {delay mt mc : Nat} {free : Nat → Nat} (h : P.minPer ≤ mt) : GInv P (St.init delay mt mc free) := by
  refine ⟨⟨?_, ?_, ?_, ?_, ?_⟩, ⟨?_, ?_, ?_, ?_, ?_⟩, ?_, ?_, h⟩
  · intro n r hr; cases hr
  · intro n _; rfl
  · intro c; exact List.nodup_nil
  · intro c; exact Nat.zero_le _
  · intro c q hq; cases hq
  · intro c r hr; cases hr
  · intro c; rfl
  · intro x hx; cases hx
  · exact List.Pairwise.nil
  · exact Nat.zero_le _
  · intro n c a
    constructor
    · rintro ⟨r, hr, _⟩; cases hr
    · rintro ⟨r, hr, _⟩; cases hr
  · intro n h; cases h

theorem CInv.noKicked {cfg : Cfg} {c : Nat} {k : Cand} (h : CInv cfg c k) : CInv cfg c (k.toRec.toCand k.pool) :=
  ⟨h.shape, h.uniq, ⟨h.cache.topTotal, h.cache.botTotal, h.cache.counted, h.cache.count, h.cache.lowestTop, h.cache.highestBottom,
    h.cache.lowestBottom, h.cache.topCap, h.cache.bottomCap⟩, h.pool⟩

/-- Changing one candidate, when the pool entries of the others stay. -/
theorem CSide.put {cands : Nat → Option CRec} {pool pool' : List Bond} {clock clock' : Nat → Nat} (h : CSide P cands pool clock)
    {c : Nat} {r' : CRec} (hinv : CInv P.cfg c (r'.toCand pool')) (hpool : ∀ x : Bond, x.owner ≠ c → (x ∈ pool' ↔ x ∈ pool))
    (hl : clock' c = r'.info.bond) (hl2 : ∀ d, d ≠ c → clock' d = clock d) : CSide P (upd cands c (some r')) pool' clock' := by
  refine ⟨?_, ?_, ?_, hinv.pool.sorted, hinv.pool.len⟩
  · intro d r hd
    by_cases e : d = c
    · subst e
      rw [upd_same] at hd
      injection hd with hd
      subst hd
      exact hinv
    · rw [upd_ne _ _ e] at hd
      have hi := h.inv d r hd
      refine ⟨hi.shape, hi.uniq, ⟨hi.cache.topTotal, hi.cache.botTotal, hi.cache.counted, hi.cache.count, hi.cache.lowestTop,
        hi.cache.highestBottom, hi.cache.lowestBottom, hi.cache.topCap, hi.cache.bottomCap⟩, ?_⟩
      refine ⟨hinv.pool.sorted, hinv.pool.len, ?_, ?_⟩
      · intro ha; exact (hpool _ e).2 (hi.pool.yes ha)
      · intro ha x hx ex
        subst ex
        exact hi.pool.no ha x ((hpool x e).1 hx) rfl
  · intro d
    by_cases e : d = c
    · subst e; rw [upd_same, hl]; rfl
    · rw [upd_ne _ _ e, hl2 d e]; exact h.lock d
  · intro x hx
    by_cases e : x.owner = c
    · rw [e, upd_same]; rfl
    · rw [upd_ne _ _ e]; exact h.dom x ((hpool x e).1 hx)

theorem CSide.putCand (h : CSide P s.cands s.pool s.clock) {c : Nat} {r : CRec} (hr : s.cands c = some r) {k' : Cand}
    (hinv : CInv P.cfg c k') (hf : Frame c (r.toCand s.pool) k') : CSide P (s.putCand c k').cands (s.putCand c k').pool s.clock := by
  refine h.put hinv.noKicked hf.pool ?_ (fun _ _ => rfl)
  rw [h.lock c, hr]
  exact hf.bond.symm

/-- What a change at the nominators' side leaves alone. -/
structure SameC (s s' : St) : Prop where
  cands : s'.cands = s.cands
  pool : s'.pool = s.pool
  clock : s'.clock = s.clock
  total : s'.total = s.total
  era : s'.era = s.era
  delay : s'.delay = s.delay
  minTotal : s'.minTotal = s.minTotal
  minCollator : s'.minCollator = s.minCollator
  free : s'.free = s.free

theorem SameC.refl (s : St) : SameC s s := ⟨rfl, rfl, rfl, rfl, rfl, rfl, rfl, rfl, rfl⟩

theorem SameC.trans {s t u : St} (h : SameC s t) (g : SameC t u) : SameC s u :=
  ⟨g.cands.trans h.cands, g.pool.trans h.pool, g.clock.trans h.clock, g.total.trans h.total, g.era.trans h.era, g.delay.trans h.delay,
   g.minTotal.trans h.minTotal, g.minCollator.trans h.minCollator, g.free.trans h.free⟩

/-! ### Removing one nomination at the nominators' side -/

/-- The effect of `rm_nomination`, dropping the request and storing (or deleting) the record. -/
def takeOut (s : St) (c : Nat) (b : Bond) (r : Nomr) : St :=
  { s with
    noms := upd s.noms b.owner (if without r.noms c = [] then none
      else some ⟨without r.noms c, r.total - b.amount, r.less - pend (s.reqs c) b.owner⟩)
    nlock := upd s.nlock b.owner (r.total - b.amount)
    reqs := upd s.reqs c (dropReq (s.reqs c) b.owner) }

theorem upd_upd {α β : Type _} [DecidableEq α] (f : α → β) (a : α) (x y : β) : upd (upd f a x) a y = upd f a y := by
  funext z
  by_cases h : z = a
  · subst h; rw [upd_same, upd_same]
  · rw [upd_ne _ _ h, upd_ne _ _ h, upd_ne _ _ h]

theorem upd_self {α β : Type _} [DecidableEq α] (f : α → β) (a : α) : upd f a (f a) = f := by
  funext z
  by_cases h : z = a
  · subst h; rw [upd_same]
  · rw [upd_ne _ _ h]

theorem takeOut_ok (h : NSide P s.noms s.nlock s.reqs) {c : Nat} {b : Bond} {r : Nomr} (hr : s.noms b.owner = some r)
    (hb : (⟨c, b.amount⟩ : Bond) ∈ r.noms) :
    NSide P (takeOut s c b r).noms (takeOut s c b r).nlock (takeOut s c b r).reqs ∧ SameC s (takeOut s c b r) ∧
    (∀ m, m ≠ b.owner → (takeOut s c b r).noms m = s.noms m) ∧
    (∀ n d a, HasN (takeOut s c b r).noms n d a ↔ HasN s.noms n d a ∧ ¬ (n = b.owner ∧ d = c)) := by
  have h1 := h.drop hr ⟨_, hb, rfl⟩
  have h2 := h1.remove (n := b.owner) (c := c) (upd_same _ _ _) (b := ⟨c, b.amount⟩) hb rfl
    (by intro x hx; rw [upd_same] at hx; exact ((dropReq_mem (h.uniq c)).1 hx).2)
  rw [upd_upd] at h2
  refine ⟨h2, ⟨rfl, rfl, rfl, rfl, rfl, rfl, rfl, rfl, rfl⟩, fun m hm => upd_ne _ _ hm, ?_⟩
  intro n d a
  show (∃ r', upd _ _ _ n = some r' ∧ _) ↔ _
  by_cases e : n = b.owner
  · subst e
    rw [upd_same]
    constructor
    · rintro ⟨r', h3, h4⟩
      by_cases hw : without r.noms c = []
      · rw [if_pos hw] at h3; cases h3
      · rw [if_neg hw] at h3
        injection h3 with h3
        subst h3
        have := without_mem.1 h4
        exact ⟨⟨r, hr, this.1⟩, fun e => this.2 e.2⟩
    · rintro ⟨⟨r', h3, h4⟩, h5⟩
      rw [hr] at h3
      injection h3 with h3
      subst h3
      have hm : (⟨d, a⟩ : Bond) ∈ without r.noms c := without_mem.2 ⟨h4, fun e => h5 ⟨rfl, e⟩⟩
      have hw : without r.noms c ≠ [] := by intro e; rw [e] at hm; cases hm
      rw [if_neg hw]
      exact ⟨_, rfl, hm⟩
  · rw [upd_ne _ _ e]
    constructor
    · intro h3; exact ⟨h3, fun h4 => e h4.1⟩
    · rintro ⟨h3, _⟩; exact h3

theorem Nomr.rm_eq {n lock : Nat} {reqs : Nat → List Req} {r : Nomr} (hP : P.Ok) (h : NRec P reqs n lock r) {c a : Nat}
    (hb : (⟨c, a⟩ : Bond) ∈ r.noms) : r.rm c = some { r with noms := without r.noms c, total := r.total - a } := by
  unfold Nomr.rm
  have := findOwner_mem h.sorted.uniq hb
  rw [this]
  dsimp only
  rw [rebuildSet_eq (h.sorted.without c)]
  have h1 := (without_sublist r.noms c).length_le
  have h2 := h.len
  have h3 := hP.max
  omega

theorem removeRequest_eq (s : St) (hu : RUniq (s.reqs c)) (n : Nat) (r : Nomr) :
    removeRequest s c n r = (s.putReqs c (dropReq (s.reqs c) n), { r with less := r.less - pend (s.reqs c) n }) := by
  unfold removeRequest pend
  cases hq : findReq (s.reqs c) n with
  | none =>
    have hd : dropReq (s.reqs c) n = s.reqs c := by
      rw [dropReq_eq_filter hu, List.filter_eq_self]
      intro q h; simpa using findReq_none.1 hq q h
    dsimp only
    rw [hd]
    unfold St.putReqs
    rw [upd_self]
    simp
  | some q => rfl

theorem length_one_iff {r : Nomr} {b : Bond} (hu : Uniq r.noms) (hb : b ∈ r.noms) :
    r.noms.length = 1 ↔ without r.noms b.owner = [] := by
  have := length_without hu hb
  rw [← List.length_eq_zero_iff]
  omega

/-- A kicked nominator loses exactly that nomination. -/
theorem kickOne_eq (hP : P.Ok) (h : NSide P s.noms s.nlock s.reqs) {c : Nat} {b : Bond} {r : Nomr} (hr : s.noms b.owner = some r)
    (hb : (⟨c, b.amount⟩ : Bond) ∈ r.noms) : kickOne s c b = takeOut s c b r := by
  have hnr := h.some _ _ hr
  unfold kickOne
  rw [hr]
  dsimp only
  rw [Nomr.rm_eq hP hnr hb]
  dsimp only
  rw [removeRequest_eq (s.lockNom b.owner (r.total - b.amount)) (h.uniq c)]
  dsimp only
  unfold takeOut St.putNom St.putReqs St.lockNom
  have := length_one_iff hnr.sorted.uniq hb
  by_cases hw : without r.noms c = []
  · rw [if_pos (this.2 hw), if_pos hw]
  · rw [if_neg (fun e => hw (this.1 e)), if_neg hw]

theorem sumAmt_zero {l : List Bond} (h : ∀ b ∈ l, 1 ≤ b.amount) : sumAmt l = 0 ↔ l = [] := by
  cases l with
  | nil => simp
  | cons b l =>
    have := h b (List.mem_cons_self ..)
    simp; omega

/-- A nominator of a leaving candidate loses exactly that nomination. -/
theorem returnStake_eq (hP : P.Ok) (h : NSide P s.noms s.nlock s.reqs) {c : Nat} {b : Bond} {r : Nomr} (hr : s.noms b.owner = some r)
    (hb : (⟨c, b.amount⟩ : Bond) ∈ r.noms) : returnStake c (some s) b = some (takeOut s c b r) := by
  have hnr := h.some _ _ hr
  unfold returnStake
  dsimp only
  rw [hr]
  dsimp only
  rw [Nomr.rm_eq hP hnr hb]
  dsimp only
  rw [removeRequest_eq (s.lockNom b.owner (r.total - b.amount)) (h.uniq c)]
  dsimp only
  have hsum := sum_without hnr.sorted.uniq hb
  have hz : r.total - b.amount = 0 ↔ without r.noms c = [] := by
    rw [hnr.total, hsum]
    have := sumAmt_zero (l := without r.noms c) (fun x hx => Nat.le_trans hP.pos (hnr.min x (without_mem.1 hx).1))
    rw [← this]
    show b.amount + sumAmt (without r.noms c) - b.amount = 0 ↔ _
    omega
  unfold takeOut St.putNom St.putReqs St.lockNom
  by_cases hw : without r.noms c = []
  · rw [if_pos (hz.2 hw), if_pos hw]
    dsimp only
    rw [upd_upd, hz.2 hw]
  · rw [if_neg (fun e => hw (hz.1 e)), if_neg hw]

end Verif.Staking
