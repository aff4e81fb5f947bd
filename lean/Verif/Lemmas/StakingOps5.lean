import Verif.Lemmas.StakingOps4

/-! # Leaving all collators, leaving candidates, and the candidates' own calls -/

namespace Verif.Staking

variable {P : Par} {s s' t : St}

/-! ### Executing the revocation of everything -/

theorem eraseRevoke_eq {l : List Req} (u : RUniq l) {n : Nat} {q : Req} (hq : q ∈ l) (hn : q.nominator = n) (hr : q.revoke = true) :
    l.eraseP (fun q => Req.by n q && q.revoke) = dropReq l n := by
  induction l with
  | nil => cases hq
  | cons x l ih =>
    obtain ⟨h1, h2⟩ := List.nodup_cons.1 u
    unfold dropReq at ih ⊢
    by_cases hx : x.nominator = n
    · have : x = q := u.eq (List.mem_cons_self ..) hq (hx.trans hn.symm)
      subst this
      rw [List.eraseP_cons_of_pos (by simp [Req.by, hx, hr]), List.eraseP_cons_of_pos (by simp [Req.by, hx])]
    · have hq' : q ∈ l := by
        rcases List.mem_cons.1 hq with rfl | h
        · exact absurd hn hx
        · exact h
      rw [List.eraseP_cons_of_neg (by simp [Req.by, hx]), List.eraseP_cons_of_neg (by simp [Req.by, hx]), ih h2 hq']

/-- The state after one round of the loop. -/
def leftOne (s : St) (n : Nat) (b : Bond) (k' : Cand) : St :=
  { (s.putCand b.owner k') with total := s.total - b.amount, reqs := upd s.reqs b.owner (dropReq (s.reqs b.owner) n) }

/-- What the loop does: the nominations of `n` with the listed collators and the requests are gone at the collators' side. -/
structure LeaveLoop (P : Par) (s s' : St) (n : Nat) (l : List Bond) : Prop where
  side : CSide P s'.cands s'.pool s'.clock
  noms : s'.noms = s.noms
  nlock : s'.nlock = s.nlock
  same : SameP s s'
  kept : Kept s s'
  has : ∀ m d x, HasC s'.cands d m x ↔ HasC s.cands d m x ∧ ¬ (m = n ∧ ∃ b ∈ l, b.owner = d)
  reqsIn : ∀ b ∈ l, s'.reqs b.owner = dropReq (s.reqs b.owner) n
  reqsOut : ∀ c, (∀ b ∈ l, b.owner ≠ c) → s'.reqs c = s.reqs c
  total : s'.total = s.total - sumAmt l

theorem leaveAll_fold (hP : P.Ok) (n : Nat) (l : List Bond) : ∀ s, CSide P s.cands s.pool s.clock → (∀ c, RUniq (s.reqs c)) → Uniq l →
    (∀ b ∈ l, HasC s.cands b.owner n b.amount ∧ ∃ q ∈ s.reqs b.owner, q.nominator = n ∧ q.revoke = true) →
    LeaveLoop P s (l.foldl (leaveAllStep P n) s) n l := by
  induction l with
  | nil =>
    intro s h _ _ _
    exact ⟨h, rfl, rfl, SameP.refl _, Kept.refl _, fun m d x => by simp, fun b hb => by simp at hb, fun _ _ => rfl, rfl⟩
  | cons b l ih =>
    intro s h hru hu hm
    obtain ⟨hu1, hu2⟩ := List.nodup_cons.1 hu
    have hnotin : ∀ x ∈ l, x.owner ≠ b.owner := fun x hx e => hu1 (e ▸ List.mem_map_of_mem hx)
    obtain ⟨hc, q, hq, hqn, hqr⟩ := hm b (List.mem_cons_self ..)
    obtain ⟨r, k', hr, e, hinv, hf, hl, hperm⟩ := leavesCandidate_ok hP h hc
    have hstep : leaveAllStep P n s b =
        leftOne s n b k' := by
      unfold leaveAllStep
      rw [e]
      simp only [Option.getD_some]
      have : ({ (s.putCand b.owner k') with total := s.total - b.amount } : St).reqs = s.reqs := rfl
      rw [this, eraseRevoke_eq (hru _) hq hqn hqr]
      rfl
    have hcs := h.putCand hr hinv hf
    rw [List.foldl_cons, hstep]
    have hhas : ∀ m d x, HasC (upd s.cands b.owner (some k'.toRec)) d m x ↔ HasC s.cands d m x ∧ ¬ (m = n ∧ d = b.owner) :=
      fun m d x => HasC_without hr hperm
    have hru' : ∀ c, RUniq (upd s.reqs b.owner (dropReq (s.reqs b.owner) n) c) := by
      intro c
      by_cases e : c = b.owner
      · subst e; rw [upd_same]; exact dropReq_uniq (hru _) _
      · rw [upd_ne _ _ e]; exact hru c
    have hr2 := ih (leftOne s n b k') hcs hru' hu2 (by
      intro x hx
      have hne := hnotin x hx
      obtain ⟨g1, g2⟩ := hm x (List.mem_cons_of_mem _ hx)
      refine ⟨(hhas _ _ _).2 ⟨g1, fun e => hne e.2⟩, ?_⟩
      show ∃ q ∈ upd s.reqs b.owner _ x.owner, _
      rw [upd_ne _ _ hne]; exact g2)
    have hkept : Kept s (leftOne s n b k') := by
      refine Kept.of ?_ ?_
      · intro d r0 hd
        by_cases e : d = b.owner
        · subst e
          rw [hr] at hd
          injection hd with hd
          subst hd
          exact ⟨k'.toRec, upd_same _ _ _, hf.bond, hf.request, hf.status⟩
        · exact ⟨r0, (upd_ne _ _ e).trans hd, rfl, rfl, rfl⟩
      · intro d hd
        have e : d ≠ b.owner := by intro e; rw [e, hr] at hd; cases hd
        exact (upd_ne _ _ e).trans hd
    refine ⟨hr2.side, hr2.noms, hr2.nlock, SameP.trans (t := leftOne s n b k') ⟨rfl, rfl, rfl, rfl, rfl⟩ hr2.same, hkept.trans hr2.kept, ?_, ?_, ?_, ?_⟩
    · intro m d x
      rw [hr2.has]
      show HasC (upd s.cands b.owner (some k'.toRec)) d m x ∧ _ ↔ _
      rw [hhas]
      constructor
      · rintro ⟨⟨g1, g2⟩, g3⟩
        refine ⟨g1, ?_⟩
        rintro ⟨e1, y, hy, e2⟩
        rcases List.mem_cons.1 hy with rfl | hy
        · exact g2 ⟨e1, e2.symm⟩
        · exact g3 ⟨e1, y, hy, e2⟩
      · rintro ⟨g1, g2⟩
        exact ⟨⟨g1, fun e => g2 ⟨e.1, b, List.mem_cons_self .., e.2.symm⟩⟩,
          fun ⟨e1, y, hy, e2⟩ => g2 ⟨e1, y, List.mem_cons_of_mem _ hy, e2⟩⟩
    · intro x hx
      rcases List.mem_cons.1 hx with rfl | hx
      · rw [hr2.reqsOut x.owner hnotin]
        exact upd_same _ _ _
      · rw [hr2.reqsIn x hx]
        show dropReq (upd s.reqs b.owner _ x.owner) n = _
        rw [upd_ne _ _ (hnotin x hx)]
    · intro c hc
      rw [hr2.reqsOut c (fun x hx => hc x (List.mem_cons_of_mem _ hx))]
      exact upd_ne _ _ (fun e => hc b (List.mem_cons_self ..) e.symm)
    · rw [hr2.total]
      show s.total - b.amount - sumAmt l = s.total - sumAmt (b :: l)
      simp only [sumAmt_cons]
      omega

theorem executeRevokeAll_ok (hP : P.Ok) (h : GInv P s) {n hint : Nat} (ho : executeRevokeAll P s n hint = some s') :
    ∃ r, s.noms n = some r ∧ s'.noms n = none ∧ s'.total = s.total - r.total ∧ ExecAllSpec P s s' n r.noms ∧
      ∀ b ∈ r.noms, PairExec s s' n b.owner := by
  unfold executeRevokeAll at ho
  cases hr : s.noms n with
  | none => rw [hr] at ho; cases ho
  | some r =>
  rw [hr] at ho
  dsimp only at ho
  by_cases hh : hint < r.noms.length
  · rw [if_pos hh] at ho; cases ho
  rw [if_neg hh] at ho
  by_cases hall : r.noms.all (revokeDue s.reqs s.era n) = true
  · rw [if_pos hall] at ho
    injection ho with ho
    have hnr := h.n.some n r hr
    have hdue : ∀ b ∈ r.noms, ∃ q ∈ s.reqs b.owner, q.nominator = n ∧ q.revoke = true ∧ q.due ≤ s.era ∧ q.amount = b.amount := by
      intro b hb
      have h1 := (List.all_eq_true.1 hall) b hb
      unfold revokeDue at h1
      cases hf : (s.reqs b.owner).find? (fun q => Req.by n q && q.revoke) with
      | none => rw [hf] at h1; cases h1
      | some q =>
        rw [hf] at h1
        simp only [decide_eq_true_eq] at h1
        have g1 := List.mem_of_find?_eq_some hf
        have g2 := List.find?_some hf
        simp only [Bool.and_eq_true, Req.by, decide_eq_true_eq] at g2
        refine ⟨q, g1, g2.1, g2.2, h1, ?_⟩
        obtain ⟨r0, b0, k1, k2, k3, k4, _⟩ := h.n.req b.owner q g1
        rw [g2.1, hr] at k1
        injection k1 with k1
        subst k1
        have : b0 = b := hnr.sorted.uniq.eq k2 hb k3
        subst this
        exact k4 g2.2
    have hL := leaveAll_fold hP n r.noms s h.c h.n.uniq hnr.sorted.uniq (by
      intro b hb
      obtain ⟨q, g1, g2, g3, _⟩ := hdue b hb
      exact ⟨(h.link n b.owner b.amount).2 ⟨r, hr, hb⟩, q, g1, g2, g3⟩)
    generalize hs1 : r.noms.foldl (leaveAllStep P n) s = s1 at *
    -- requests: exactly those of others
    have hreqs : ∀ c (q : Req), q ∈ s1.reqs c ↔ q ∈ s.reqs c ∧ q.nominator ≠ n := by
      intro c q
      by_cases hin : ∃ b ∈ r.noms, b.owner = c
      · obtain ⟨b, hb, rfl⟩ := hin
        rw [hL.reqsIn b hb, dropReq_mem (h.n.uniq _)]
      · rw [hL.reqsOut c (fun b hb e => hin ⟨b, hb, e⟩)]
        constructor
        · intro hq
          refine ⟨hq, ?_⟩
          intro e
          obtain ⟨r0, b0, k1, k2, k3, _⟩ := h.n.req c q hq
          rw [e, hr] at k1
          injection k1 with k1
          subst k1
          exact hin ⟨b0, k2, k3⟩
        · exact fun e => e.1
    have hpend : ∀ c m, m ≠ n → pend (s1.reqs c) m = pend (s.reqs c) m := by
      intro c m hmn
      by_cases hin : ∃ b ∈ r.noms, b.owner = c
      · obtain ⟨b, hb, rfl⟩ := hin
        rw [hL.reqsIn b hb, pend_drop_ne (h.n.uniq _) hmn]
      · rw [hL.reqsOut c (fun b hb e => hin ⟨b, hb, e⟩)]
    have hsub : ∀ c, (s1.reqs c).length ≤ (s.reqs c).length ∧ RUniq (s1.reqs c) := by
      intro c
      by_cases hin : ∃ b ∈ r.noms, b.owner = c
      · obtain ⟨b, hb, rfl⟩ := hin
        rw [hL.reqsIn b hb]; exact ⟨dropReq_length _ _, dropReq_uniq (h.n.uniq _) _⟩
      · rw [hL.reqsOut c (fun b hb e => hin ⟨b, hb, e⟩)]; exact ⟨Nat.le_refl _, h.n.uniq c⟩
    have hnoms : s'.noms = upd s.noms n none := by rw [← ho]; show upd s1.noms n none = _; rw [hL.noms]
    have hlock : s'.nlock = upd s.nlock n 0 := by rw [← ho]; show upd s1.nlock n 0 = _; rw [hL.nlock]
    have hreqs' : s'.reqs = s1.reqs := by rw [← ho]; rfl
    have hcands : s'.cands = s1.cands := by rw [← ho]; rfl
    have hN : ∀ m d x, HasN s'.noms m d x ↔ HasN s.noms m d x ∧ m ≠ n := by
      intro m d x
      rw [hnoms]
      constructor
      · rintro ⟨r0, h0, h1⟩
        by_cases e : m = n
        · subst e; rw [upd_same] at h0; cases h0
        · rw [upd_ne _ _ e] at h0; exact ⟨⟨r0, h0, h1⟩, e⟩
      · rintro ⟨⟨r0, h0, h1⟩, e⟩
        exact ⟨r0, by rw [upd_ne _ _ e]; exact h0, h1⟩
    have hside : NSide P s'.noms s'.nlock s'.reqs := by
      rw [hnoms, hlock, hreqs']
      refine ⟨?_, ?_, fun c => (hsub c).2, fun c => Nat.le_trans (hsub c).1 (h.n.len c), ?_⟩
      · intro m r0 h0
        by_cases e : m = n
        · subst e; rw [upd_same] at h0; cases h0
        · rw [upd_ne _ _ e] at h0 ⊢
          have := h.n.some m r0 h0
          refine ⟨this.sorted, this.ne, this.len, this.total, this.lock, ?_, this.min⟩
          rw [this.less]
          symm
          apply pendSum_congr
          intro b _
          exact hpend _ _ e
      · intro m h0
        by_cases e : m = n
        · subst e; rw [upd_same]
        · rw [upd_ne _ _ e] at h0 ⊢; exact h.n.none m h0
      · intro c q hq
        obtain ⟨g1, g2⟩ := (hreqs c q).1 hq
        obtain ⟨r0, b0, k1, k2⟩ := h.n.req c q g1
        exact ⟨r0, b0, by rw [upd_ne _ _ g2]; exact k1, k2⟩
    have hpair : ∀ b ∈ r.noms, PairExec s s' n b.owner := by
      intro b hb
      obtain ⟨q, g1, g2, g3, g4, g5⟩ := hdue b hb
      refine ⟨q, g1, g2, g4, ?_, b.amount, ⟨r, hr, hb⟩, by omega, fun _ => g5, ?_⟩
      · intro x hx; rw [hreqs'] at hx; exact ((hreqs _ _).1 hx).2
      · intro x
        rw [hN]
        constructor
        · rintro ⟨_, e⟩; exact absurd rfl e
        · rintro ⟨e, _⟩; rw [g3] at e; cases e
    refine ⟨r, rfl, by rw [hnoms, upd_same], ?_, ⟨⟨hside, ?_, ?_, ?_, ?_⟩, ?_, ?_, ?_, fun b hb => Or.inl (hpair b hb)⟩, hpair⟩
    · rw [← ho]; show s1.total = _; rw [hL.total, hnr.total]
    · rw [← ho]; exact hL.side
    · intro m d x
      rw [hcands, hL.has, hN, h.link]
      constructor
      · rintro ⟨g1, g2⟩
        refine ⟨g1, ?_⟩
        intro e
        subst e
        exact g2 ⟨rfl, _, (HasN.of hr).1 g1, rfl⟩
      · rintro ⟨g1, g2⟩; exact ⟨g1, fun e => g2 e.1⟩
    · intro m hm
      rw [hcands]
      have hm0 : (s.noms m).isSome = true := by
        rw [hnoms] at hm
        by_cases e : m = n
        · subst e; rw [upd_same] at hm; cases hm
        · rw [upd_ne _ _ e] at hm; exact hm
      have hc0 := h.excl m hm0
      cases hc1 : s1.cands m with
      | none => rfl
      | some r1 => obtain ⟨r0, e, _⟩ := hL.kept.back m r1 hc1; rw [e] at hc0; cases hc0
    · rw [← ho]; show P.minPer ≤ s1.minTotal; rw [hL.same.minTotal]; exact h.min
    · rw [← ho]; exact ⟨hL.same.era, hL.same.delay, hL.same.minTotal, hL.same.minCollator, hL.same.free⟩
    · refine hL.kept.trans (Kept.same hcands)
    · intro m d hne
      constructor
      · intro x
        rw [hN]
        constructor
        · exact fun e => e.1
        · intro e
          refine ⟨e, ?_⟩
          intro e2
          subst e2
          exact hne ⟨rfl, _, (HasN.of hr).1 e, rfl⟩
      · intro q hq
        rw [hreqs', hreqs]
        constructor
        · exact fun e => e.1
        · intro e
          refine ⟨e, ?_⟩
          intro e2
          obtain ⟨r0, b0, k1, k2, k3, _⟩ := h.n.req d q e
          rw [e2, hr] at k1
          injection k1 with k1
          subst k1
          exact hne ⟨hq.symm.trans e2, b0, k2, k3⟩
  · rw [if_neg hall] at ho; cases ho

/-! ### A candidate leaves -/

theorem returnStake_fold (hP : P.Ok) (c : Nat) (l : List Bond) : ∀ s, NSide P s.noms s.nlock s.reqs → Uniq l →
    (∀ b ∈ l, HasN s.noms b.owner c b.amount) →
    ∃ s', l.foldl (returnStake c) (some s) = some s' ∧ NSide P s'.noms s'.nlock s'.reqs ∧ SameC s s' ∧
      (∀ m, (s'.noms m).isSome = true → (s.noms m).isSome = true) ∧
      (∀ m d a, HasN s'.noms m d a ↔ HasN s.noms m d a ∧ ¬ (d = c ∧ ∃ b ∈ l, b.owner = m)) ∧
      (∀ d, d ≠ c → s'.reqs d = s.reqs d) := by
  induction l with
  | nil =>
    intro s h _ _
    exact ⟨s, rfl, h, SameC.refl _, fun _ h => h, fun m d a => by simp, fun _ _ => rfl⟩
  | cons b l ih =>
    intro s h hu hm
    obtain ⟨hu1, hu2⟩ := List.nodup_cons.1 hu
    have hnotin : ∀ x ∈ l, x.owner ≠ b.owner := fun x hx e => hu1 (e ▸ List.mem_map_of_mem hx)
    obtain ⟨r, hr, hb⟩ := hm b (List.mem_cons_self ..)
    have e := returnStake_eq hP h hr hb
    obtain ⟨t1, t2, t3, t4⟩ := takeOut_ok h hr hb
    obtain ⟨s', f1, f2, f3, f4, f5, f6⟩ := ih (takeOut s c b r) t1 hu2 (by
      intro x hx
      exact (t4 _ _ _).2 ⟨hm x (List.mem_cons_of_mem _ hx), fun e => hnotin x hx e.1⟩)
    refine ⟨s', by rw [List.foldl_cons, e]; exact f1, f2, t2.trans f3, ?_, ?_, ?_⟩
    · intro m hm'
      have := f4 m hm'
      by_cases e : m = b.owner
      · subst e; rw [hr]; rfl
      · rw [t3 m e] at this; exact this
    · intro m d a
      rw [f5, t4]
      constructor
      · rintro ⟨⟨g1, g2⟩, g3⟩
        refine ⟨g1, ?_⟩
        rintro ⟨e1, y, hy, e2⟩
        rcases List.mem_cons.1 hy with rfl | hy
        · exact g2 ⟨e2.symm, e1⟩
        · exact g3 ⟨e1, y, hy, e2⟩
      · rintro ⟨g1, g2⟩
        exact ⟨⟨g1, fun e => g2 ⟨e.2, b, List.mem_cons_self .., e.1.symm⟩⟩,
          fun ⟨e1, y, hy, e2⟩ => g2 ⟨e1, y, List.mem_cons_of_mem _ hy, e2⟩⟩
    · intro d hd
      rw [f6 d hd]
      exact upd_ne _ _ hd

/-- Everything leaving does. -/
structure LeaveSpec (P : Par) (s s' : St) (c : Nat) (r : CRec) : Prop where
  inv : GInv P s'
  same : SameP s s'
  gone : s'.cands c = none
  others : ∀ d, d ≠ c → s'.cands d = s.cands d
  lock : s'.clock c = 0
  due : ∃ w, r.info.status = .leaving w ∧ w ≤ s.era
  bonds : ∀ m d x, HasN s'.noms m d x ↔ HasN s.noms m d x ∧ d ≠ c
  reqs : s'.reqs = upd s.reqs c []
  total : s'.total = s.total - (r.info.bond + r.top.total + r.bottom.total)

theorem executeLeave_ok (hP : P.Ok) (h : GInv P s) {c hint : Nat} (ho : executeLeave s c hint = some s') :
    ∃ r, s.cands c = some r ∧ LeaveSpec P s s' c r := by
  unfold executeLeave at ho
  cases hr : s.cands c with
  | none => rw [hr] at ho; cases ho
  | some r =>
  rw [hr] at ho
  dsimp only at ho
  by_cases hh : hint < r.info.count
  · rw [if_pos hh] at ho; cases ho
  rw [if_neg hh] at ho
  by_cases hl : r.info.canLeave s.era = false
  · rw [if_pos hl] at ho; cases ho
  rw [if_neg hl] at ho
  have hi := h.c.inv c r hr
  obtain ⟨s1, f1, f2, f3, f4, f5, f6⟩ := returnStake_fold hP c (r.top.list ++ r.bottom.list) s h.n hi.uniq
    (by intro b hb; exact (h.link _ _ _).1 ⟨r, hr, hb⟩)
  rw [f1] at ho
  dsimp only at ho
  injection ho with ho
  have hdue : ∃ w, r.info.status = .leaving w ∧ w ≤ s.era := by
    unfold Info.canLeave at hl
    cases hs : r.info.status with
    | active => rw [hs] at hl; simp at hl
    | idle => rw [hs] at hl; simp at hl
    | leaving w => rw [hs] at hl; simp at hl; exact ⟨w, rfl, hl⟩
  have hb : ∀ m d x, HasN s1.noms m d x ↔ HasN s.noms m d x ∧ d ≠ c := by
    intro m d x
    rw [f5]
    constructor
    · rintro ⟨g1, g2⟩
      refine ⟨g1, ?_⟩
      intro e
      subst e
      obtain ⟨r0, k1, k2⟩ := (h.link m d x).2 g1
      rw [hr] at k1
      injection k1 with k1
      subst k1
      exact g2 ⟨rfl, _, k2, rfl⟩
    · rintro ⟨g1, g2⟩; exact ⟨g1, fun e => g2 e.1⟩
  have hempty : s1.reqs c = [] := by
    cases hq : s1.reqs c with
    | nil => rfl
    | cons q l =>
      obtain ⟨r0, b0, k1, k2, k3, _⟩ := f2.req c q (by rw [hq]; exact List.mem_cons_self ..)
      have : HasN s1.noms q.nominator c b0.amount := ⟨r0, k1, by rw [← k3]; exact k2⟩
      exact absurd rfl ((hb _ _ _).1 this).2
  have hreqs : upd s1.reqs c [] = s1.reqs := by rw [← hempty, upd_self]
  have hreqs2 : s1.reqs = upd s.reqs c [] := by
    funext d
    by_cases e : d = c
    · subst e; rw [upd_same, hempty]
    · rw [upd_ne _ _ e, f6 d e]
  have hact : r.info.isActive = false := by
    obtain ⟨w, hw, _⟩ := hdue
    unfold Info.isActive; rw [hw]; rfl
  have hnp := hi.pool.no hact
  refine ⟨r, rfl, ?_⟩
  subst ho
  refine ⟨⟨?_, ⟨?_, ?_, ?_, ?_, ?_⟩, ?_, ?_, ?_⟩, ⟨f3.era, f3.delay, f3.minTotal, f3.minCollator, f3.free⟩, ?_, ?_, ?_, hdue, hb, ?_, ?_⟩
  · show NSide P s1.noms s1.nlock (upd s1.reqs c []); rw [hreqs]; exact f2
  · intro d r0 hd
    have hd : upd s1.cands c none d = some r0 := hd
    by_cases e : d = c
    · subst e; rw [upd_same] at hd; cases hd
    · rw [upd_ne _ _ e, f3.cands] at hd
      show CInv P.cfg d (r0.toCand s1.pool)
      rw [f3.pool]; exact h.c.inv d r0 hd
  · intro d
    show upd s1.clock c 0 d = ((upd s1.cands c none d).map _).getD 0
    by_cases e : d = c
    · subst e; rw [upd_same, upd_same]; rfl
    · rw [upd_ne _ _ e, upd_ne _ _ e, f3.clock, f3.cands]; exact h.c.lock d
  · intro x hx
    have hx : x ∈ s.pool := by rw [← f3.pool]; exact hx
    show (upd s1.cands c none x.owner).isSome = true
    rw [upd_ne _ _ (hnp x hx), f3.cands]; exact h.c.dom x hx
  · show KeySorted Bond.owner s1.pool; rw [f3.pool]; exact h.c.sorted
  · show s1.pool.length ≤ _; rw [f3.pool]; exact h.c.len
  · intro m d x
    rw [hb]
    show HasC (upd s1.cands c none) d m x ↔ _
    rw [← h.link, f3.cands]
    constructor
    · rintro ⟨r0, k1, k2⟩
      by_cases e : d = c
      · subst e; rw [upd_same] at k1; cases k1
      · rw [upd_ne _ _ e] at k1; exact ⟨⟨r0, k1, k2⟩, e⟩
    · rintro ⟨⟨r0, k1, k2⟩, e⟩; exact ⟨r0, by rw [upd_ne _ _ e]; exact k1, k2⟩
  · intro m hm
    show upd s1.cands c none m = none
    by_cases e : m = c
    · subst e; rw [upd_same]
    · rw [upd_ne _ _ e, f3.cands]; exact h.excl m (f4 m hm)
  · show P.minPer ≤ s1.minTotal; rw [f3.minTotal]; exact h.min
  · exact upd_same _ _ _
  · intro d hd; show upd s1.cands c none d = _; rw [upd_ne _ _ hd, f3.cands]
  · exact upd_same _ _ _
  · show upd s1.reqs c [] = _; rw [hreqs, hreqs2]
  · show s1.total - _ = _; rw [f3.total]

/-! ### The candidates' own calls -/

theorem pool_insert {pool pool' : List Bond} {max c t : Nat} (hs : KeySorted Bond.owner pool)
    (e : setInsert Bond.owner max pool ⟨c, t⟩ = (.added, pool')) :
    KeySorted Bond.owner pool' ∧ pool'.length ≤ max ∧ (∀ x ∈ pool, x.owner ≠ c) ∧ ∀ x, x ∈ pool' ↔ x = ⟨c, t⟩ ∨ x ∈ pool := by
  rcases setInsert_cases hs max ⟨c, t⟩ with ⟨_, e2⟩ | ⟨a, b, hl, ha, hb, e2⟩
  · rw [e2] at e; cases e
  · rw [e2] at e
    by_cases hc : pool.length < max
    · rw [if_pos hc] at e
      obtain ⟨_, e⟩ := Prod.mk.inj e
      subst e
      subst hl
      refine ⟨hs.insert ha hb, ?_, ?_, ?_⟩
      · simp at hc ⊢; omega
      · intro x hx e
        rcases List.mem_append.1 hx with hx | hx
        · have := ha x hx; simp at this; omega
        · have := hb x hx; simp at this; omega
      · intro x
        simp only [List.mem_append, List.mem_cons]
        constructor
        · rintro (h | h | h)
          · exact Or.inr (Or.inl h)
          · exact Or.inl h
          · exact Or.inr (Or.inr h)
        · rintro (h | h | h)
          · exact Or.inr (Or.inl h)
          · exact Or.inl h
          · exact Or.inr (Or.inr h)
    · rw [if_neg hc] at e; cases e

theorem pool_remove {pool : List Bond} (hs : KeySorted Bond.owner pool) (c : Nat) :
    KeySorted Bond.owner (setRemove Bond.owner pool c).2 ∧ (setRemove Bond.owner pool c).2.length ≤ pool.length ∧
    ∀ x, x ∈ (setRemove Bond.owner pool c).2 ↔ x ∈ pool ∧ x.owner ≠ c := by
  refine ⟨setRemove_sorted hs c, ?_, ?_⟩
  · rcases setRemove_cases hs c with ⟨_, e⟩ | ⟨_, e⟩
    · rw [e]; exact List.length_filter_le _ _
    · rw [e]; exact Nat.le_refl _
  · intro x
    rcases setRemove_cases hs c with ⟨_, e⟩ | ⟨h, e⟩
    · rw [e]; simp
    · rw [e]; exact ⟨fun hx => ⟨hx, h x hx⟩, fun hx => hx.1⟩

/-- Changing a candidate's own data. -/
theorem GInv.setInfo (h : GInv P s) {c : Nat} {r : CRec} (hr : s.cands c = some r) {i : Info} {pool' : List Bond} {clock' : Nat → Nat}
    {tot : Nat} (e1 : i.count = r.info.count) (e2 : i.lowestTop = r.info.lowestTop) (e3 : i.highestBottom = r.info.highestBottom)
    (e4 : i.lowestBottom = r.info.lowestBottom) (e5 : i.topCap = r.info.topCap) (e6 : i.bottomCap = r.info.bottomCap)
    (e7 : i.totalCounted = i.bond + sumAmt r.top.list) (hp : PoolOk P.cfg c i.isActive i.totalCounted pool')
    (hpo : ∀ x : Bond, x.owner ≠ c → (x ∈ pool' ↔ x ∈ s.pool)) (hl : clock' c = i.bond) (hl2 : ∀ d, d ≠ c → clock' d = s.clock d) :
    GInv P { s with cands := upd s.cands c (some { r with info := i }), pool := pool', clock := clock', total := tot } := by
  have hi := h.c.inv c r hr
  have hc : CInv P.cfg c (({ r with info := i } : CRec).toCand pool') :=
    ⟨hi.shape, hi.uniq, ⟨hi.cache.topTotal, hi.cache.botTotal, e7, e1.trans hi.cache.count, e2.trans hi.cache.lowestTop,
      e3.trans hi.cache.highestBottom, e4.trans hi.cache.lowestBottom, e5.trans hi.cache.topCap, e6.trans hi.cache.bottomCap⟩, hp⟩
  refine ⟨h.n, h.c.put hc hpo hl hl2, ?_, ?_, h.min⟩
  · intro m d x
    rw [← h.link]
    show HasC (upd s.cands c _) d m x ↔ _
    rw [HasC_put]
    constructor
    · rintro (⟨rfl, e⟩ | ⟨_, e⟩)
      · exact ⟨r, hr, e⟩
      · exact e
    · intro e
      by_cases hd : d = c
      · subst hd; exact Or.inl ⟨rfl, (HasC.of hr).1 e⟩
      · exact Or.inr ⟨hd, e⟩
  · intro m hm
    have := h.excl m hm
    have hmc : m ≠ c := by intro e; rw [e, hr] at this; cases this
    exact (upd_ne _ _ hmc).trans this

end Verif.Staking
