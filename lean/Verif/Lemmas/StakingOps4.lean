import Verif.Lemmas.StakingOps3

/-! # What calls do to one nominator and one collator; loops over a nominator's collators -/

namespace Verif.Staking

variable {P : Par} {s s' t : St}

/-- Candidates keep their own bond, their request and their state. -/
structure Kept (s s' : St) : Prop where
  back : ∀ d r', s'.cands d = some r' → ∃ r, s.cands d = some r ∧ r'.info.bond = r.info.bond ∧ r'.info.request = r.info.request ∧
    r'.info.status = r.info.status
  fwd : ∀ d, (s.cands d).isSome = true → (s'.cands d).isSome = true

theorem Kept.refl (s : St) : Kept s s := ⟨fun _ r h => ⟨r, h, rfl, rfl, rfl⟩, fun _ h => h⟩

theorem Kept.trans (h : Kept s t) (g : Kept t s') : Kept s s' := by
  refine ⟨?_, fun d hd => g.fwd d (h.fwd d hd)⟩
  intro d r' hr'
  obtain ⟨r1, h1, e1, e2, e3⟩ := g.back d r' hr'
  obtain ⟨r0, h0, f1, f2, f3⟩ := h.back d r1 h1
  exact ⟨r0, h0, e1.trans f1, e2.trans f2, e3.trans f3⟩

theorem Kept.of (h1 : ∀ d r, s.cands d = some r → ∃ r', s'.cands d = some r' ∧ r'.info.bond = r.info.bond ∧
      r'.info.request = r.info.request ∧ r'.info.status = r.info.status) (h2 : ∀ d, s.cands d = none → s'.cands d = none) : Kept s s' := by
  constructor
  · intro d r' hr'
    cases hd : s.cands d with
    | none => rw [h2 d hd] at hr'; cases hr'
    | some r =>
      obtain ⟨r1, e, f⟩ := h1 d r hd
      rw [e] at hr'
      injection hr' with hr'
      subst hr'
      exact ⟨r, rfl, f⟩
  · intro d hd
    cases hd' : s.cands d with
    | none => rw [hd'] at hd; cases hd
    | some r => obtain ⟨r1, e, _⟩ := h1 d r hd'; rw [e]; rfl

theorem Kept.same (h : s'.cands = s.cands) : Kept s s' := by
  refine Kept.of ?_ ?_
  · intro d r hd; exact ⟨r, by rw [h]; exact hd, rfl, rfl, rfl⟩
  · intro d hd; rw [h]; exact hd

theorem NominateSpec.kept {n c a : Nat} (h : NominateSpec P s s' n c a) : Kept s s' :=
  Kept.of (fun d r hd => by obtain ⟨r', e1, e2, e3, e4, _⟩ := h.same d r hd; exact ⟨r', e1, e2, e3, e4⟩) h.none

theorem BondExtraSpec.kept {n c a : Nat} (h : BondExtraSpec P s s' n c a) : Kept s s' :=
  Kept.of (fun d r hd => by obtain ⟨r', e1, e2, e3, e4, _⟩ := h.cands.1 d r hd; exact ⟨r', e1, e2, e3, e4⟩) h.cands.2

theorem ExecSpec.kept {n c : Nat} {q : Req} (h : ExecSpec P s s' n c q) : Kept s s' :=
  Kept.of (fun d r hd => by obtain ⟨r', e1, e2, e3, e4, _⟩ := h.cands d r hd; exact ⟨r', e1, e2, e3, e4⟩) h.none

theorem NominateSpec.sameP {n c a : Nat} (h : NominateSpec P s s' n c a) : SameP s s' :=
  ⟨h.era, h.params.1, h.params.2.1, h.params.2.2, h.free⟩

theorem SameC.sameP (h : SameC s s') : SameP s s' := ⟨h.era, h.delay, h.minTotal, h.minCollator, h.free⟩

/-! ### One nominator and one collator -/

/-- Bond and request of `n` towards `c` are as before. -/
def PairSame (s s' : St) (n c : Nat) : Prop :=
  (∀ x, HasN s'.noms n c x ↔ HasN s.noms n c x) ∧ ∀ q : Req, q.nominator = n → (q ∈ s'.reqs c ↔ q ∈ s.reqs c)

/-- A request of `n` towards `c` that was due is gone, and the bond is smaller by exactly its amount. -/
def PairExec (s s' : St) (n c : Nat) : Prop :=
  ∃ q ∈ s.reqs c, q.nominator = n ∧ q.due ≤ s.era ∧ (∀ x ∈ s'.reqs c, x.nominator ≠ n) ∧
    ∃ a, HasN s.noms n c a ∧ q.amount ≤ a ∧ (q.revoke = true → q.amount = a) ∧
      ∀ x, HasN s'.noms n c x ↔ (q.revoke = false ∧ x = a - q.amount)

/-- The bond of `n` with `c` and any request are gone. -/
def PairGone (s' : St) (n c : Nat) : Prop := (∀ x, ¬ HasN s'.noms n c x) ∧ ∀ q ∈ s'.reqs c, q.nominator ≠ n

theorem PairSame.refl (s : St) (n c : Nat) : PairSame s s n c := ⟨fun _ => Iff.rfl, fun _ _ => Iff.rfl⟩

theorem PairSame.trans {n c : Nat} (h : PairSame s t n c) (g : PairSame t s' n c) : PairSame s s' n c :=
  ⟨fun x => (g.1 x).trans (h.1 x), fun q hq => (g.2 q hq).trans (h.2 q hq)⟩

theorem PairSame.exec {n c : Nat} (h : PairSame s t n c) (he : t.era = s.era) (g : PairExec t s' n c) : PairExec s s' n c := by
  obtain ⟨q, h1, h2, h3, h4, a, h5, h6, h7, h8⟩ := g
  exact ⟨q, (h.2 q h2).1 h1, h2, by rw [← he]; exact h3, h4, a, (h.1 a).1 h5, h6, h7, h8⟩

theorem PairExec.same {n c : Nat} (h : PairExec s t n c) (g : PairSame t s' n c) : PairExec s s' n c := by
  obtain ⟨q, h1, h2, h3, h4, a, h5, h6, h7, h8⟩ := h
  refine ⟨q, h1, h2, h3, ?_, a, h5, h6, h7, fun x => (g.1 x).trans (h8 x)⟩
  intro x hx e
  exact h4 x ((g.2 x e).1 hx) e

theorem PairSame.gone {n c : Nat} (h : PairGone t n c) (g : PairSame t s' n c) : PairGone s' n c :=
  ⟨fun x e => h.1 x ((g.1 x).1 e), fun q hq e => h.2 q ((g.2 q e).1 hq) e⟩

theorem ExecSpec.pair {n c : Nat} {q : Req} (hu : RUniq (s.reqs c)) (h : ExecSpec P s s' n c q) : PairExec s s' n c := by
  obtain ⟨a, h1, h2, h3, _, h4⟩ := h.bond
  refine ⟨q, h.mem, h.by_, h.due, ?_, a, h1, h2, h3, ?_⟩
  · intro x hx
    rw [h.reqs, upd_same] at hx
    exact ((dropReq_mem hu).1 hx).2
  · intro x
    rw [h4]
    constructor
    · rintro (⟨_, _, e1, e2⟩ | ⟨_, e⟩)
      · exact ⟨e1, e2⟩
      · exact absurd ⟨rfl, rfl⟩ e
    · rintro ⟨e1, e2⟩; exact Or.inl ⟨rfl, rfl, e1, e2⟩

theorem ExecSpec.other {n c : Nat} {q : Req} (hu : RUniq (s.reqs c)) (h : ExecSpec P s s' n c q) {m d : Nat} (hne : ¬ (m = n ∧ d = c)) :
    PairSame s s' m d := by
  obtain ⟨a, h1, h2, h3, _, h4⟩ := h.bond
  constructor
  · intro x
    rw [h4]
    constructor
    · rintro (⟨e1, e2, _⟩ | ⟨e, _⟩)
      · exact absurd ⟨e1, e2⟩ hne
      · exact e
    · intro e; exact Or.inr ⟨e, hne⟩
  · intro x hx
    rw [h.reqs]
    by_cases e : d = c
    · subst e
      rw [upd_same, dropReq_mem hu]
      constructor
      · exact fun e => e.1
      · intro e; exact ⟨e, fun e2 => hne ⟨hx.symm.trans e2, rfl⟩⟩
    · rw [upd_ne _ _ e]

/-! ### Executing every request that is due -/

theorem foldl_none {α β : Type _} {f : Option α → β → Option α} (hf : ∀ b, f none b = none) (l : List β) : l.foldl f none = none := by
  induction l with
  | nil => rfl
  | cons b l ih => rw [List.foldl_cons, hf]; exact ih

/-- What a loop over a nominator's collators that executes requests does. -/
structure ExecAllSpec (P : Par) (s s' : St) (n : Nat) (l : List Bond) : Prop where
  inv : GInv P s'
  same : SameP s s'
  kept : Kept s s'
  other : ∀ m d, ¬ (m = n ∧ ∃ b ∈ l, b.owner = d) → PairSame s s' m d
  pair : ∀ b ∈ l, PairExec s s' n b.owner ∨ (PairSame s s' n b.owner ∧ ∃ q ∈ s.reqs b.owner, q.nominator = n ∧ s.era < q.due)

theorem executeDue_fold (hP : P.Ok) (n : Nat) (l : List Bond) : ∀ s, GInv P s → Uniq l →
    l.foldl (executeDueStep P n) (some s) = some s' → ExecAllSpec P s s' n l := by
  induction l with
  | nil =>
    intro s h _ ho
    injection ho with ho
    subst ho
    exact ⟨h, SameP.refl _, Kept.refl _, fun _ _ _ => PairSame.refl .., fun b hb => by cases hb⟩
  | cons b l ih =>
    intro s h hu ho
    obtain ⟨hu1, hu2⟩ := List.nodup_cons.1 hu
    have hnotin : ∀ x ∈ l, x.owner ≠ b.owner := fun x hx e => hu1 (e ▸ List.mem_map_of_mem hx)
    rw [List.foldl_cons] at ho
    cases hstep : executeDueStep P n (some s) b with
    | none => rw [hstep, foldl_none (fun _ => rfl)] at ho; cases ho
    | some s1 =>
    rw [hstep] at ho
    unfold executeDueStep at hstep
    dsimp only at hstep
    cases hq : findReq (s.reqs b.owner) n with
    | none => rw [hq] at hstep; cases hstep
    | some q =>
    rw [hq] at hstep
    dsimp only at hstep
    obtain ⟨hqm, hqn⟩ := findReq_some hq
    have key : GInv P s1 ∧ SameP s s1 ∧ Kept s s1 ∧ (∀ m d, ¬ (m = n ∧ d = b.owner) → PairSame s s1 m d) ∧
        (PairExec s s1 n b.owner ∨ (PairSame s s1 n b.owner ∧ ∃ q ∈ s.reqs b.owner, q.nominator = n ∧ s.era < q.due)) := by
      by_cases hd : q.due ≤ s.era
      · rw [if_pos hd] at hstep
        obtain ⟨q', hs⟩ := executeRequest_ok hP h hstep
        exact ⟨hs.inv, hs.same, hs.kept, fun m d hne => hs.other (h.n.uniq _) hne, Or.inl (hs.pair (h.n.uniq _))⟩
      · rw [if_neg hd] at hstep
        injection hstep with hstep
        subst hstep
        exact ⟨h, SameP.refl _, Kept.refl _, fun _ _ _ => PairSame.refl ..,
          Or.inr ⟨PairSame.refl .., q, hqm, hqn, by omega⟩⟩
    obtain ⟨k1, k2, k3, k4, k5⟩ := key
    have hr := ih s1 k1 hu2 ho
    refine ⟨hr.inv, k2.trans hr.same, k3.trans hr.kept, ?_, ?_⟩
    · intro m d hne
      refine (k4 m d ?_).trans (hr.other m d ?_)
      · rintro ⟨e1, e2⟩; exact hne ⟨e1, b, List.mem_cons_self .., e2.symm⟩
      · rintro ⟨e1, x, hx, e2⟩; exact hne ⟨e1, x, List.mem_cons_of_mem _ hx, e2⟩
    · intro x hx
      rcases List.mem_cons.1 hx with rfl | hx
      · have hs2 : PairSame s1 s' n x.owner := hr.other n x.owner (by
          rintro ⟨_, y, hy, e⟩; exact hnotin y hy e)
        rcases k5 with k5 | ⟨k5, k6⟩
        · exact Or.inl (k5.same hs2)
        · exact Or.inr ⟨k5.trans hs2, k6⟩
      · have hs1 : PairSame s s1 n x.owner := k4 n x.owner (fun e => hnotin x hx e.2)
        rcases hr.pair x hx with g | ⟨g, q', g1, g2, g3⟩
        · exact Or.inl (hs1.exec k2.era g)
        · exact Or.inr ⟨hs1.trans g, q', (hs1.2 q' g2).1 g1, g2, by rw [← k2.era]; exact g3⟩

theorem executeDue_ok (hP : P.Ok) (h : GInv P s) {n : Nat} (ho : executeDue P s n = some s') :
    ∃ r, s.noms n = some r ∧ ExecAllSpec P s s' n r.noms := by
  unfold executeDue at ho
  cases hr : s.noms n with
  | none => rw [hr] at ho; cases ho
  | some r =>
    rw [hr] at ho
    exact ⟨r, rfl, executeDue_fold hP n r.noms s h (h.n.some n r hr).sorted.uniq ho⟩

/-! ### Scheduling the revocation of everything, and cancelling it -/

/-- What sweeping over some of the nominator's collators keeps: the nominators' side, and everything about other pairs. -/
structure SweepInv (P : Par) (s : St) (n : Nat) (r : Nomr) (w : Sweep) : Prop where
  side : NSide P (upd s.noms n (some { r with less := w.less })) s.nlock w.reqs
  others : ∀ c (q : Req), q.nominator ≠ n → (q ∈ w.reqs c ↔ q ∈ s.reqs c)

theorem Sweep.cancel_eq (w : Sweep) {n c : Nat} (hu : RUniq (w.reqs c)) :
    (w.cancel n c).1 = { w with reqs := upd w.reqs c (dropReq (w.reqs c) n), less := w.less - pend (w.reqs c) n } ∧
    (w.cancel n c).2 = findReq (w.reqs c) n := by
  unfold Sweep.cancel pend
  cases hq : findReq (w.reqs c) n with
  | none =>
    have hd : dropReq (w.reqs c) n = w.reqs c := by
      rw [dropReq_eq_filter hu, List.filter_eq_self]
      intro q h; simpa using findReq_none.1 hq q h
    dsimp only
    rw [hd, upd_self]
    exact ⟨rfl, rfl⟩
  | some q => exact ⟨rfl, rfl⟩

theorem SweepInv.cancel {n : Nat} {r : Nomr} {w : Sweep} (h : SweepInv P s n r w) {b : Bond} (hb : b ∈ r.noms) :
    SweepInv P s n r (w.cancel n b.owner).1 ∧ (∀ c, c ≠ b.owner → (w.cancel n b.owner).1.reqs c = w.reqs c) ∧
    (∀ q ∈ (w.cancel n b.owner).1.reqs b.owner, q.nominator ≠ n) := by
  have hu := h.side.uniq b.owner
  obtain ⟨e1, _⟩ := w.cancel_eq (n := n) hu
  rw [e1]
  have hd := h.side.drop (n := n) (c := b.owner) (upd_same _ _ _) ⟨b, hb, rfl⟩
  rw [upd_upd] at hd
  refine ⟨⟨hd, ?_⟩, fun c hc => upd_ne _ _ hc, ?_⟩
  · intro c q hq
    rw [← h.others c q hq]
    by_cases e : c = b.owner
    · subst e
      show q ∈ upd w.reqs _ _ _ ↔ _
      rw [upd_same, dropReq_mem hu]
      exact ⟨fun e => e.1, fun e => ⟨e, hq⟩⟩
    · show q ∈ upd w.reqs _ _ _ ↔ _
      rw [upd_ne _ _ e]
  · intro q hq
    have : q ∈ dropReq (w.reqs b.owner) n := by simpa [upd_same] using hq
    exact ((dropReq_mem hu).1 this).2

theorem revokeAllStep_ok {n due : Nat} {r : Nomr} {w : Sweep} (h : SweepInv P s n r w) {b : Bond} (hb : b ∈ r.noms) :
    SweepInv P s n r (revokeAllStep P n due w b) ∧
    (∀ c, c ≠ b.owner → (revokeAllStep P n due w b).reqs c = w.reqs c) ∧
    (∀ q ∈ (revokeAllStep P n due w b).reqs b.owner, q.nominator = n →
      q ∈ w.reqs b.owner ∨ q = ⟨n, true, b.amount, due⟩) ∧
    ((∃ q ∈ (revokeAllStep P n due w b).reqs b.owner, q.nominator = n ∧ q.revoke = true ∧ q.amount = b.amount) ∨
      ((revokeAllStep P n due w b).reqs = w.reqs ∧ P.maxPer ≤ (w.reqs b.owner).length ∧ ∀ q ∈ w.reqs b.owner, q.nominator ≠ n)) := by
  obtain ⟨h1, h2, h3⟩ := h.cancel hb
  have hu := h.side.uniq b.owner
  obtain ⟨e1, e2⟩ := w.cancel_eq (n := n) hu
  unfold revokeAllStep
  generalize hc : w.cancel n b.owner = z at *
  obtain ⟨w1, q?⟩ := z
  dsimp only at h1 h2 h3 e1 e2 ⊢
  by_cases hlen : (w1.reqs b.owner).length < P.maxPer
  · rw [if_pos hlen]
    -- the request that is stored
    have hq : ∀ q, q = (q?.filter Req.revoke).getD ⟨n, true, b.amount, due⟩ →
        q.nominator = n ∧ q.revoke = true ∧ q.amount = b.amount ∧ (q ∈ w.reqs b.owner ∨ q = ⟨n, true, b.amount, due⟩) := by
      intro q hq
      cases hf : q?.filter Req.revoke with
      | none => rw [hf] at hq; subst hq; exact ⟨rfl, rfl, rfl, Or.inr rfl⟩
      | some x =>
        rw [hf] at hq
        simp only [Option.getD_some] at hq
        subst hq
        obtain ⟨hx1, hx2⟩ := Option.filter_eq_some_iff.1 hf
        rw [e2] at hx1
        obtain ⟨g1, g2⟩ := findReq_some hx1
        obtain ⟨r0, b0, k1, k2, k3, k4, _⟩ := h.side.req b.owner q g1
        rw [g2, upd_same] at k1
        injection k1 with k1
        subst k1
        have hs := (h.side.some n _ (upd_same _ _ _)).sorted.uniq
        have : b0 = b := hs.eq k2 hb k3
        subst this
        exact ⟨g2, hx2, k4 hx2, Or.inl g1⟩
    generalize hgq : (q?.filter Req.revoke).getD ⟨n, true, b.amount, due⟩ = q at *
    obtain ⟨q1, q2, q3, q4⟩ := hq q rfl
    have hp := h1.side.push (n := n) (c := b.owner) (upd_same _ _ _) hb rfl (q := q) q1 h3 (fun _ => q3)
      (fun e => by rw [q2] at e; cases e) hlen
    rw [upd_upd] at hp
    dsimp only at hp
    rw [q3] at hp
    refine ⟨⟨hp, ?_⟩, ?_, ?_, Or.inl ⟨q, ?_, q1, q2, q3⟩⟩
    · intro c x hx
      rw [← h1.others c x hx]
      by_cases e : c = b.owner
      · subst e
        show x ∈ upd w1.reqs _ _ _ ↔ _
        rw [upd_same, List.mem_append, List.mem_singleton]
        constructor
        · rintro (e | e)
          · exact e
          · subst e; exact absurd q1 hx
        · exact Or.inl
      · show x ∈ upd w1.reqs _ _ _ ↔ _
        rw [upd_ne _ _ e]
    · intro c hcb
      show upd w1.reqs _ _ _ = _
      rw [upd_ne _ _ hcb]; exact h2 c hcb
    · intro x hx hxn
      have hx : x ∈ w1.reqs b.owner ++ [q] := by simpa [upd_same] using hx
      rcases List.mem_append.1 hx with hx | hx
      · exact absurd hxn (h3 x hx)
      · simp at hx; subst hx; exact q4
    · show q ∈ upd w1.reqs _ _ _
      rw [upd_same]; simp
  · rw [if_neg hlen]
    -- nothing was cancelled
    have hnone : findReq (w.reqs b.owner) n = none := by
      cases hf : findReq (w.reqs b.owner) n with
      | none => rfl
      | some x =>
        exfalso
        have hx := (findReq_some hf).1
        have hl := h.side.len b.owner
        have : (dropReq (w.reqs b.owner) n).length = (w.reqs b.owner).length - 1 := by
          unfold dropReq
          exact List.length_eraseP_of_mem hx (by simp [Req.by, (findReq_some hf).2])
        have h0 : 0 < (w.reqs b.owner).length := List.length_pos_of_mem hx
        rw [e1] at hlen
        apply hlen
        show (upd w.reqs _ _ _).length < _
        rw [upd_same]
        omega
    have hww : w1 = w := by
      rw [e1]
      have hd : dropReq (w.reqs b.owner) n = w.reqs b.owner := by
        rw [dropReq_eq_filter hu, List.filter_eq_self]
        intro q h; simpa using findReq_none.1 hnone q h
      rw [hd, upd_self]
      unfold pend
      rw [hnone]
      rfl
    have hqn : q? = none := by rw [e2, hnone]
    rw [hww] at hlen ⊢
    refine ⟨⟨h.side, h.others⟩, fun _ _ => rfl, fun q hq _ => Or.inl hq, Or.inr ⟨rfl, by omega, findReq_none.1 hnone⟩⟩

theorem revokeAll_fold {n due : Nat} {r : Nomr} (l : List Bond) : ∀ w, SweepInv P s n r w → Uniq l → (∀ b ∈ l, b ∈ r.noms) →
    SweepInv P s n r (l.foldl (revokeAllStep P n due) w) ∧
    (∀ c, (∀ b ∈ l, b.owner ≠ c) → (l.foldl (revokeAllStep P n due) w).reqs c = w.reqs c) ∧
    (∀ b ∈ l, (∀ q ∈ (l.foldl (revokeAllStep P n due) w).reqs b.owner, q.nominator = n →
      q ∈ w.reqs b.owner ∨ q = ⟨n, true, b.amount, due⟩) ∧
      ((∃ q ∈ (l.foldl (revokeAllStep P n due) w).reqs b.owner, q.nominator = n ∧ q.revoke = true ∧ q.amount = b.amount) ∨
        ((l.foldl (revokeAllStep P n due) w).reqs b.owner = w.reqs b.owner ∧ P.maxPer ≤ (w.reqs b.owner).length ∧
          ∀ q ∈ w.reqs b.owner, q.nominator ≠ n))) := by
  induction l with
  | nil => intro w h _ _; exact ⟨h, fun _ _ => rfl, fun b hb => by cases hb⟩
  | cons b l ih =>
    intro w h hu hm
    obtain ⟨hu1, hu2⟩ := List.nodup_cons.1 hu
    have hnotin : ∀ x ∈ l, x.owner ≠ b.owner := fun x hx e => hu1 (e ▸ List.mem_map_of_mem hx)
    obtain ⟨a1, a2, a3, a4⟩ := revokeAllStep_ok (due := due) h (hm b (List.mem_cons_self ..))
    obtain ⟨b1, b2, b3⟩ := ih (revokeAllStep P n due w b) a1 hu2 (fun x hx => hm x (List.mem_cons_of_mem _ hx))
    rw [List.foldl_cons]
    refine ⟨b1, ?_, ?_⟩
    · intro c hc
      rw [b2 c (fun x hx => hc x (List.mem_cons_of_mem _ hx)), a2 c (fun e => hc b (List.mem_cons_self ..) e.symm)]
    · intro x hx
      rcases List.mem_cons.1 hx with rfl | hx
      · rw [b2 x.owner hnotin]
        refine ⟨a3, ?_⟩
        rcases a4 with a4 | ⟨a4, a5⟩
        · exact Or.inl a4
        · exact Or.inr ⟨by rw [a4], a5⟩
      · have := b3 x hx
        rw [a2 x.owner (hnotin x hx)] at this
        exact this

/-- What a call that only changes the requests of `n` does. -/
structure ReqOnly (P : Par) (s s' : St) (n : Nat) : Prop where
  inv : GInv P s'
  same : SameC s s'
  locks : s'.nlock = s.nlock
  bonds : ∀ m d x, HasN s'.noms m d x ↔ HasN s.noms m d x
  others : ∀ c (q : Req), q.nominator ≠ n → (q ∈ s'.reqs c ↔ q ∈ s.reqs c)

theorem revokeAll_ok (h : GInv P s) {n : Nat} (ho : revokeAll P s n = some s') :
    ReqOnly P s s' n ∧
    (∀ c, ∀ q ∈ s'.reqs c, q.nominator = n → q ∈ s.reqs c ∨ ∃ a, HasN s.noms n c a ∧ q = ⟨n, true, a, s.era + s.delay⟩) ∧
    (∀ c a, HasN s.noms n c a → (∃ q ∈ s'.reqs c, q.nominator = n ∧ q.revoke = true ∧ q.amount = a) ∨
      (s'.reqs c = s.reqs c ∧ P.maxPer ≤ (s.reqs c).length ∧ ∀ q ∈ s.reqs c, q.nominator ≠ n)) := by
  unfold revokeAll at ho
  cases hr : s.noms n with
  | none => rw [hr] at ho; cases ho
  | some r =>
  rw [hr] at ho
  dsimp only at ho
  have hnr := h.n.some n r hr
  have h0 : SweepInv P s n r ⟨s.reqs, r.less, 0⟩ := by
    refine ⟨?_, fun _ _ _ => Iff.rfl⟩
    show NSide P (upd s.noms n (some r)) s.nlock s.reqs
    rw [← hr, upd_self]; exact h.n
  obtain ⟨w1, w2, w3⟩ := revokeAll_fold (due := s.era + s.delay) r.noms _ h0 hnr.sorted.uniq (fun b hb => hb)
  generalize hw : r.noms.foldl (revokeAllStep P n (s.era + s.delay)) ⟨s.reqs, r.less, 0⟩ = w at *
  by_cases hc : w.count = r.noms.length
  · rw [if_pos hc] at ho; cases ho
  rw [if_neg hc] at ho
  injection ho with ho
  obtain ⟨g1, g2⟩ := h.reqChange hr w1.side
  subst ho
  refine ⟨⟨g1, ⟨rfl, rfl, rfl, rfl, rfl, rfl, rfl, rfl, rfl⟩, rfl, g2, w1.others⟩, ?_, ?_⟩
  · intro c q hq hqn
    by_cases hin : ∃ b ∈ r.noms, b.owner = c
    · obtain ⟨b, hb, rfl⟩ := hin
      rcases (w3 b hb).1 q hq hqn with e | e
      · exact Or.inl e
      · exact Or.inr ⟨b.amount, ⟨r, hr, hb⟩, e⟩
    · have := w2 c (fun b hb e => hin ⟨b, hb, e⟩)
      left
      have hq' : q ∈ w.reqs c := hq
      rw [this] at hq'
      exact hq'
  · intro c a ha
    exact (w3 ⟨c, a⟩ ((HasN.of hr).1 ha)).2

theorem cancelAll_fold {n : Nat} {r : Nomr} (l : List Bond) : ∀ w, SweepInv P s n r w → (∀ b ∈ l, b ∈ r.noms) →
    SweepInv P s n r (l.foldl (fun w b => (w.cancel n b.owner).1) w) ∧
    (∀ c (q : Req), q ∈ (l.foldl (fun w b => (w.cancel n b.owner).1) w).reqs c → q ∈ w.reqs c) ∧
    (∀ b ∈ l, ∀ q ∈ (l.foldl (fun w b => (w.cancel n b.owner).1) w).reqs b.owner, q.nominator ≠ n) := by
  induction l with
  | nil => intro w h _; exact ⟨h, fun _ _ h => h, fun b hb => by cases hb⟩
  | cons b l ih =>
    intro w h hm
    obtain ⟨a1, a2, a3⟩ := h.cancel (hm b (List.mem_cons_self ..))
    obtain ⟨b1, b2, b3⟩ := ih (w.cancel n b.owner).1 a1 (fun x hx => hm x (List.mem_cons_of_mem _ hx))
    rw [List.foldl_cons]
    refine ⟨b1, ?_, ?_⟩
    · intro c q hq
      have := b2 c q hq
      by_cases e : c = b.owner
      · subst e
        obtain ⟨e1, _⟩ := w.cancel_eq (n := n) (h.side.uniq b.owner)
        rw [e1] at this
        have : q ∈ dropReq (w.reqs b.owner) n := by simpa [upd_same] using this
        exact ((dropReq_mem (h.side.uniq _)).1 this).1
      · rw [a2 c e] at this; exact this
    · intro x hx q hq
      rcases List.mem_cons.1 hx with rfl | hx
      · exact a3 q (b2 _ q hq)
      · exact b3 x hx q hq

theorem cancelRevokeAll_ok (h : GInv P s) {n : Nat} (ho : cancelRevokeAll s n = some s') :
    ReqOnly P s s' n ∧ (∀ c, ∀ q ∈ s'.reqs c, q.nominator ≠ n) ∧
    (∀ c a, HasN s.noms n c a → ∃ q ∈ s.reqs c, q.nominator = n ∧ q.revoke = true) := by
  unfold cancelRevokeAll at ho
  cases hr : s.noms n with
  | none => rw [hr] at ho; cases ho
  | some r =>
  rw [hr] at ho
  dsimp only at ho
  have hnr := h.n.some n r hr
  by_cases hall : r.noms.all (hasRevoke s.reqs n) = true
  · rw [if_pos hall] at ho
    have h0 : SweepInv P s n r ⟨s.reqs, r.less, 0⟩ := by
      refine ⟨?_, fun _ _ _ => Iff.rfl⟩
      show NSide P (upd s.noms n (some r)) s.nlock s.reqs
      rw [← hr, upd_self]; exact h.n
    obtain ⟨w1, w2, w3⟩ := cancelAll_fold (n := n) r.noms _ h0 (fun b hb => hb)
    generalize hw : r.noms.foldl (fun w b => (w.cancel n b.owner).1) (⟨s.reqs, r.less, 0⟩ : Sweep) = w at *
    injection ho with ho
    obtain ⟨g1, g2⟩ := h.reqChange hr w1.side
    subst ho
    refine ⟨⟨g1, ⟨rfl, rfl, rfl, rfl, rfl, rfl, rfl, rfl, rfl⟩, rfl, g2, w1.others⟩, ?_, ?_⟩
    · intro c q hq e
      have hq0 : q ∈ s.reqs c := w2 c q hq
      obtain ⟨r0, b, k1, k2, k3, _⟩ := h.n.req c q hq0
      rw [e, hr] at k1
      injection k1 with k1
      subst k1
      subst k3
      exact w3 b k2 q hq e
    · intro c a ha
      have hb := (HasN.of hr).1 ha
      have := (List.all_eq_true.1 hall) _ hb
      unfold hasRevoke at this
      obtain ⟨q, hq, hq2⟩ := List.any_eq_true.1 this
      simp only [Bool.and_eq_true, Req.by, decide_eq_true_eq] at hq2
      exact ⟨q, hq, hq2.1, hq2.2⟩
  · rw [if_neg hall] at ho; cases ho

end Verif.Staking
