import Verif.Lemmas.StakingOps2

/-! # Every call keeps the invariant of the ledger: executing requests -/

namespace Verif.Staking

variable {P : Par} {s s' : St}

/-- `nominator_leaves_candidate` with the recorded amount removes exactly that nomination from the candidate. -/
theorem leavesCandidate_ok (hP : P.Ok) (h : CSide P s.cands s.pool s.clock) {c n a : Nat} (hc : HasC s.cands c n a) :
    ∃ (r : CRec) (k' : Cand), s.cands c = some r ∧ leavesCandidate P s c n a = some { (s.putCand c k') with total := s.total - a } ∧
      CInv P.cfg c k' ∧ Frame c (r.toCand s.pool) k' ∧ k'.leak = r.leak ∧ k'.toRec.entries.Perm (without r.entries n) := by
  obtain ⟨r, hr, hm⟩ := hc
  obtain ⟨k', e, hinv, hf, hl, _, hp⟩ := rmNomination_ok hP.cfg (h.inv c r hr) (d := ⟨n, a⟩) hm
  refine ⟨r, k', hr, ?_, hinv, hf, hl, hp⟩
  unfold leavesCandidate
  rw [cand?_of hr]
  dsimp only
  dsimp only at e
  rw [e]

/-- The nominations after a candidate lost one. -/
theorem HasC_without {c n : Nat} {r r' : CRec} (hr : s.cands c = some r) (hp : r'.entries.Perm (without r.entries n)) {d m x : Nat} :
    HasC (upd s.cands c (some r')) d m x ↔ HasC s.cands d m x ∧ ¬ (m = n ∧ d = c) := by
  rw [HasC_put, hp.mem_iff, without_mem]
  constructor
  · rintro (⟨rfl, e, e2⟩ | ⟨e, e2⟩)
    · exact ⟨⟨r, hr, e⟩, fun e3 => e2 e3.1⟩
    · exact ⟨e2, fun e3 => e e3.2⟩
  · rintro ⟨e, e2⟩
    by_cases hd : d = c
    · subst hd; exact Or.inl ⟨rfl, (HasC.of hr).1 e, fun e3 => e2 ⟨e3, rfl⟩⟩
    · exact Or.inr ⟨hd, e⟩

open Classical in
/-- Everything executing a request does: the request `q` of `n` towards `c` is due and gone, the bond is `q.amount` less. -/
structure ExecSpec (P : Par) (s s' : St) (n c : Nat) (q : Req) : Prop where
  inv : GInv P s'
  same : SameP s s'
  mem : q ∈ s.reqs c
  by_ : q.nominator = n
  due : q.due ≤ s.era
  reqs : s'.reqs = upd s.reqs c (dropReq (s.reqs c) n)
  bond : ∃ a, HasN s.noms n c a ∧ q.amount ≤ a ∧ (q.revoke = true → q.amount = a) ∧ (q.revoke = false → q.amount + P.minPer ≤ a) ∧
    ∀ m d x, HasN s'.noms m d x ↔ (m = n ∧ d = c ∧ q.revoke = false ∧ x = a - q.amount) ∨ (HasN s.noms m d x ∧ ¬ (m = n ∧ d = c))
  total : s'.total = s.total - q.amount
  none : ∀ d, s.cands d = none → s'.cands d = none
  cands : ∀ d r, s.cands d = some r → ∃ r', s'.cands d = some r' ∧ r'.info.bond = r.info.bond ∧ r'.info.request = r.info.request ∧
    r'.info.status = r.info.status ∧ (d ≠ c → r' = r) ∧
    r'.leak = r.leak + (if d = c ∧ q.revoke = false ∧ (∃ a, (⟨n, a⟩ : Bond) ∈ r.bottom.list) then q.amount else 0)
  minKept : q.revoke = false → ∃ r', s'.noms n = some r' ∧ s.minTotal ≤ r'.total

theorem executeRevoke_ok (hP : P.Ok) (h : GInv P s) {n c : Nat} {r : Nomr} (hr : s.noms n = some r) {q : Req}
    (hq : findReq (s.reqs c) n = some q) (hrev : q.revoke = true) (hdue : q.due ≤ s.era)
    (ho : executeRevoke P s n c r q = some s') : ExecSpec P s s' n c q := by
  obtain ⟨hqm, hqn⟩ := findReq_some hq
  obtain ⟨r0, b, g1, g2, g3, g4, g5⟩ := h.n.req c q hqm
  rw [hqn, hr] at g1
  injection g1 with g1
  subst g1
  obtain ⟨bo, a⟩ := b
  simp only at g3
  subst g3
  have ea : q.amount = a := g4 hrev
  have hnr := h.n.some n r hr
  have hN : HasN s.noms n bo a := ⟨r, hr, g2⟩
  have hp : pend (s.reqs bo) n = q.amount := by unfold pend; rw [hq]; rfl
  unfold executeRevoke at ho
  by_cases hlen : r.noms.length ≠ 1 ∧ r.total - s.minTotal < q.amount
  · rw [if_pos hlen] at ho; cases ho
  rw [if_neg hlen] at ho
  have hrm : ({ r with less := r.less - q.amount } : Nomr).rm bo =
      some ⟨without r.noms bo, r.total - a, r.less - q.amount⟩ := by
    unfold Nomr.rm
    dsimp only
    rw [findOwner_mem hnr.sorted.uniq g2]
    dsimp only
    rw [rebuildSet_eq (hnr.sorted.without bo)]
    have h1 := (without_sublist r.noms bo).length_le
    have h2 := hnr.len
    have h3 := hP.max
    omega
  dsimp only at ho
  rw [hrm] at ho
  simp only [Option.getD_some] at ho
  have hC := (h.link n bo a).2 hN
  obtain ⟨rc, k', hrc, e, hinv, hf, hl, hperm⟩ := leavesCandidate_ok (s := s.lockNom n (r.total - a)) hP h.c hC
  rw [ea, e] at ho
  dsimp only at ho
  injection ho with ho
  obtain ⟨t1, t2, t3, t4⟩ := takeOut_ok h.n (c := bo) (b := ⟨n, a⟩) hr g2
  have hnoms : s'.noms = (takeOut s bo ⟨n, a⟩ r).noms := by
    rw [← ho]
    show upd s.noms n _ = upd s.noms n _
    have := length_one_iff hnr.sorted.uniq g2
    rw [hp, ea]
    by_cases hw : without r.noms bo = []
    · rw [if_pos (this.2 hw), if_pos hw]
    · rw [if_neg (fun e => hw (this.1 e)), if_neg hw]
  have hlock : s'.nlock = (takeOut s bo ⟨n, a⟩ r).nlock := by rw [← ho]; rfl
  have hreqs : s'.reqs = (takeOut s bo ⟨n, a⟩ r).reqs := by rw [← ho]; rfl
  have hcands : s'.cands = upd s.cands bo (some k'.toRec) := by rw [← ho]; rfl
  have hcs := h.c.putCand hrc hinv hf
  have hhas : ∀ m d x, HasN s'.noms m d x ↔ HasN s.noms m d x ∧ ¬ (m = n ∧ d = bo) := by rw [hnoms]; exact t4
  refine ⟨⟨by rw [hnoms, hlock, hreqs]; exact t1, by rw [← ho]; exact hcs, ?_, ?_, by rw [← ho]; exact h.min⟩,
    by rw [← ho]; exact ⟨rfl, rfl, rfl, rfl, rfl⟩, hqm, hqn, hdue, by rw [← ho]; rfl, ⟨a, hN, by omega, fun _ => ea, g5, ?_⟩, by rw [← ho, ea]; rfl, ?_, ?_, ?_⟩
  · intro m d x
    rw [hcands, HasC_without (s := s) hrc hperm, hhas, h.link]
  · intro m hm
    rw [hcands]
    have hs : (s.noms m).isSome = true := by
      by_cases e : m = n
      · subst e; rw [hr]; rfl
      · rw [hnoms, t3 m e] at hm; exact hm
    have hc := h.excl m hs
    have hrc' : s.cands bo = some rc := hrc
    have hmc : m ≠ bo := by intro e; rw [e, hrc'] at hc; cases hc
    rw [upd_ne _ _ hmc]; exact hc
  · intro m d x
    rw [hhas]
    constructor
    · exact Or.inr
    · rintro (⟨_, _, e, _⟩ | e)
      · rw [hrev] at e; cases e
      · exact e
  · intro d hd
    rw [hcands]
    have hrc' : s.cands bo = some rc := hrc
    have e : d ≠ bo := by intro e; rw [e, hrc'] at hd; cases hd
    rw [upd_ne _ _ e]; exact hd
  · intro d r0 hd
    rw [hcands]
    by_cases e : d = bo
    · subst e
      have hrc' : s.cands d = some rc := hrc
      rw [hrc'] at hd
      injection hd with hd
      subst hd
      refine ⟨k'.toRec, upd_same _ _ _, hf.bond, hf.request, hf.status, fun e => absurd rfl e, ?_⟩
      rw [if_neg (by rintro ⟨_, e, _⟩; rw [hrev] at e; cases e)]
      exact hl
    · refine ⟨r0, (upd_ne _ _ e).trans hd, rfl, rfl, rfl, fun _ => rfl, ?_⟩
      rw [if_neg (by rintro ⟨e2, _⟩; exact e e2)]; rfl
  · intro e; rw [hrev] at e; cases e

theorem executeDecrease_ok (hP : P.Ok) (h : GInv P s) {n c : Nat} {r : Nomr} (hr : s.noms n = some r) {q : Req}
    (hq : findReq (s.reqs c) n = some q) (hrev : q.revoke = false) (hdue : q.due ≤ s.era)
    (ho : executeDecrease P s n c r q = some s') : ExecSpec P s s' n c q := by
  obtain ⟨hqm, hqn⟩ := findReq_some hq
  obtain ⟨r0, b, g1, g2, g3, g4, g5⟩ := h.n.req c q hqm
  rw [hqn, hr] at g1
  injection g1 with g1
  subst g1
  obtain ⟨bo, a⟩ := b
  simp only at g3
  subst g3
  have hle : q.amount + P.minPer ≤ a := g5 hrev
  have hpos := hP.pos
  have hnr := h.n.some n r hr
  have hN : HasN s.noms n bo a := ⟨r, hr, g2⟩
  have hp : pend (s.reqs bo) n = q.amount := by unfold pend; rw [hq]; rfl
  have hC := (h.link n bo a).2 hN
  obtain ⟨rc, hrc, hm⟩ := hC
  unfold executeDecrease at ho
  rw [findOwner_mem hnr.sorted.uniq g2] at ho
  dsimp only at ho
  rw [if_neg (by omega)] at ho
  rw [cand?_of hrc] at ho
  dsimp only at ho
  by_cases hm1 : r.total - q.amount < P.minPer
  · rw [if_pos hm1] at ho; cases ho
  rw [if_neg hm1] at ho
  by_cases hm2 : r.total - q.amount < s.minTotal
  · rw [if_pos hm2] at ho; cases ho
  rw [if_neg hm2] at ho
  obtain ⟨k', t, e, hinv, hf, hleak, _, hperm⟩ :=
    decreaseNomination_ok hP.cfg (h.c.inv bo rc hrc) (d := ⟨n, a⟩) hm (less := q.amount) (by dsimp only; omega)
  dsimp only at e
  rw [e] at ho
  dsimp only at ho
  injection ho with ho
  -- nominators' side: drop the request, then adjust
  have hn1 := h.n.drop hr ⟨_, g2, rfl⟩
  have ht : a ≤ r.total := by
    rw [hnr.total, sum_without hnr.sorted.uniq g2]; dsimp only; omega
  have hn2 := hn1.adjust (n := n) (c := bo) (upd_same _ _ _) (b := ⟨bo, a⟩) g2 rfl (f := (· - q.amount)) (t := r.total - q.amount)
    (by show r.total - q.amount + a = r.total + (a - q.amount); omega)
    (by show P.minPer ≤ a - q.amount; omega)
    (by intro x hx hxn; rw [upd_same] at hx; exact absurd hxn ((dropReq_mem (h.n.uniq bo)).1 hx).2)
  rw [upd_upd] at hn2
  obtain ⟨l1, l2⟩ := link_adjust h hrc hr hm g2 (f := (· - q.amount)) (r' := k'.toRec)
    (q' := ⟨adjust r.noms bo (· - q.amount), r.total - q.amount, r.less - q.amount⟩) hperm rfl
  have hcs := h.c.putCand hrc hinv hf
  dsimp only at hn2
  rw [hp] at hn2
  subst ho
  refine ⟨⟨hn2, hcs, l1, ?_, h.min⟩,
    ⟨rfl, rfl, rfl, rfl, rfl⟩, hqm, hqn, hdue, rfl, ⟨a, hN, by omega, g4, g5, ?_⟩, rfl, ?_, ?_, ?_⟩
  · intro m hm; exact excl_keep h hrc hr m hm
  · intro m d x
    refine (l2 m d x).trans ?_
    simp [hrev]
  · intro d hd
    have e : d ≠ bo := by intro e; rw [e, hrc] at hd; cases hd
    exact (upd_ne _ _ e).trans hd
  · intro d r0 hd
    by_cases e : d = bo
    · subst e
      rw [hrc] at hd
      injection hd with hd
      subst hd
      refine ⟨k'.toRec, upd_same _ _ _, hf.bond, hf.request, hf.status, fun e => absurd rfl e, ?_⟩
      show k'.leak = _
      rw [hleak]
      have hiff : (⟨n, a⟩ : Bond) ∈ (rc.toCand s.pool).bottom.list ↔ (d = d ∧ q.revoke = false ∧ ∃ a, (⟨n, a⟩ : Bond) ∈ rc.bottom.list) := by
        constructor
        · intro h0; exact ⟨rfl, hrev, a, h0⟩
        · rintro ⟨_, _, a', h0⟩
          have := (h.c.inv d rc hrc).uniq.eq hm (List.mem_append_right _ h0) rfl
          injection this with _ this
          subst this
          exact h0
      by_cases hb : (⟨n, a⟩ : Bond) ∈ (rc.toCand s.pool).bottom.list
      · rw [if_pos (hiff.1 hb)]
        exact congrArg _ (if_pos hb)
      · rw [if_neg (fun e => hb (hiff.2 e))]
        exact congrArg _ (if_neg hb)
    · refine ⟨r0, (upd_ne _ _ e).trans hd, rfl, rfl, rfl, fun _ => rfl, ?_⟩
      rw [if_neg (by rintro ⟨e2, _⟩; exact e e2)]; rfl
  · intro _
    exact ⟨_, upd_same _ _ _, by dsimp only; omega⟩

theorem executeRequest_ok (hP : P.Ok) (h : GInv P s) {n c : Nat} (ho : executeRequest P s n c = some s') :
    ∃ q, ExecSpec P s s' n c q := by
  unfold executeRequest at ho
  cases hr : s.noms n with
  | none => rw [hr] at ho; cases ho
  | some r =>
  rw [hr] at ho
  dsimp only at ho
  cases hq : findReq (s.reqs c) n with
  | none => rw [hq] at ho; cases ho
  | some q =>
  rw [hq] at ho
  dsimp only at ho
  by_cases hd : s.era < q.due
  · rw [if_pos hd] at ho; cases ho
  rw [if_neg hd] at ho
  cases hrev : q.revoke with
  | true => rw [hrev] at ho; exact ⟨q, executeRevoke_ok hP h hr hq hrev (by omega) ho⟩
  | false => rw [hrev] at ho; exact ⟨q, executeDecrease_ok hP h hr hq hrev (by omega) ho⟩

/-- A recorded request can be executed from its era on; a revoke only when the nominator leaves altogether or stays above the
minimum total, a decrease when the total stays above it. -/
theorem executeRequest_succeeds (hP : P.Ok) (h : GInv P s) {n c : Nat} {q : Req} (hq : q ∈ s.reqs c) (hn : q.nominator = n)
    (hdue : q.due ≤ s.era) {r : Nomr} (hr : s.noms n = some r)
    (hmin : (q.revoke = true ∧ r.noms.length = 1) ∨ s.minTotal + q.amount ≤ r.total) : ∃ s', executeRequest P s n c = some s' := by
  have hf : findReq (s.reqs c) n = some q := by rw [← hn]; exact findReq_mem (h.n.uniq c) hq
  obtain ⟨r0, b, g1, g2, g3, g4, g5⟩ := h.n.req c q hq
  rw [hn, hr] at g1
  injection g1 with g1
  subst g1
  obtain ⟨bo, a⟩ := b
  simp only at g3
  subst g3
  have hnr := h.n.some n r hr
  have hN : HasN s.noms n bo a := ⟨r, hr, g2⟩
  have hC := (h.link n bo a).2 hN
  have hpos := hP.pos
  unfold executeRequest
  rw [hr]
  dsimp only
  rw [hf]
  dsimp only
  rw [if_neg (by omega)]
  cases hrev : q.revoke with
  | true =>
    rw [if_pos rfl]
    unfold executeRevoke
    have ea : q.amount = a := g4 hrev
    have hmin' : ¬ (r.noms.length ≠ 1 ∧ r.total - s.minTotal < q.amount) := by
      rintro ⟨e1, e2⟩
      rcases hmin with ⟨_, h1⟩ | h1
      · exact e1 h1
      · omega
    rw [if_neg hmin']
    rw [ea]
    dsimp only
    obtain ⟨rc, k', hrc, e, _⟩ := leavesCandidate_ok
      (s := s.lockNom n ((({ r with less := r.less - a } : Nomr).rm bo).getD { r with less := r.less - a }).total) hP h.c hC
    rw [e]
    exact ⟨_, rfl⟩
  | false =>
    rw [if_neg (by simp)]
    have hle := g5 hrev
    dsimp only at hle
    have ht : s.minTotal + q.amount ≤ r.total := by
      rcases hmin with ⟨h1, _⟩ | h1
      · rw [hrev] at h1; cases h1
      · exact h1
    have hm := h.min
    unfold executeDecrease
    rw [findOwner_mem hnr.sorted.uniq g2]
    dsimp only
    rw [if_neg (by omega)]
    obtain ⟨rc, hrc, hm'⟩ := hC
    rw [cand?_of hrc]
    dsimp only
    rw [if_neg (by omega), if_neg (by omega)]
    obtain ⟨k', t, e, _⟩ :=
      decreaseNomination_ok hP.cfg (h.c.inv bo rc hrc) (d := ⟨n, a⟩) hm' (less := q.amount) (by dsimp only; omega)
    dsimp only at e
    rw [e]
    exact ⟨_, rfl⟩

end Verif.Staking
