import Verif.Props.StakingSplit
import Verif.Props.StakingLive

/-!
# C156: nominating several collators at once

For states reached by any history of calls: exactly when `signed_nominate`, which splits one amount over several collators, is accepted.
-/

namespace Verif.Staking

/-! ### Specification -/

/-- The share of each collator: the amount times one over their number, in their order; the rest goes to one of them, picked by the
block number (C47: together they are the amount). -/
def splitShares (targets : List Nat) (amount block : Nat) : List (Nat × Nat) :=
  targets.zip (shares (perCollator targets.length amount) (amount - perCollator targets.length amount * targets.length) block
    targets.length targets.length 0 amount)

/-- How many nominations an account has. -/
def nominations (s : St) (n : Nat) : Nat := ((s.noms n).map fun r => r.noms.length).getD 0

/-- These shares can be nominated by `n`: every collator exists, is named once and not nominated yet, and has room for its share, which
is at least the minimum; the nominator has that many places; one that has no nominations yet is no candidate, and gives the first
collator at least the minimum total. -/
structure CanNominate (P : Par) (s : St) (n : Nat) (l : List (Nat × Nat)) : Prop where
  room : ∀ c a, (c, a) ∈ l → ∃ k, s.cands c = some k ∧ RoomFor P k a
  once : (l.map Prod.fst).Nodup
  fresh : ∀ c a, (c, a) ∈ l → ∀ r, s.noms n = some r → ∀ b ∈ r.noms, b.owner ≠ c
  least : ∀ c a, (c, a) ∈ l → P.minPer ≤ a
  places : nominations s n + l.length ≤ P.maxPer
  first : s.noms n = none → ∀ x, l.head? = some x → s.cands n = none ∧ s.minTotal ≤ x.2

/-! ### Proof -/

private theorem uniq_nodup {l : List Bond} (u : Uniq l) : l.Nodup := by
  unfold Uniq at u
  rw [List.Nodup, List.pairwise_map] at u
  exact List.Pairwise.imp (fun h e => h (congrArg _ e)) u

private theorem after_nominate {P : Par} (hP : P.Sane) {s s1 : St} (h : GInv P s) {n c a : Nat} (hN : NominateSpec P s s1 n c a) :
    ∃ r', s1.noms n = some r' ∧ nominations s1 n = nominations s n + 1 ∧ (∀ b ∈ r'.noms, b.owner = c ∨ HasN s.noms n b.owner b.amount) ∧
      (⟨c, a⟩ : Bond) ∈ r'.noms ∧ ∀ r, s.noms n = some r → ∀ b ∈ r.noms, b ∈ r'.noms := by
  obtain ⟨r', hr', hm⟩ := (hN.own c a).2 (Or.inl ⟨rfl, rfl⟩)
  have hold : ∀ r, s.noms n = some r → ∀ b ∈ r.noms, b ∈ r'.noms := by
    intro r hr b hb
    obtain ⟨r2, e, hb2⟩ := (hN.own b.owner b.amount).2 (Or.inr ⟨r, hr, hb⟩)
    rw [hr'] at e
    injection e with e
    subst e
    exact hb2
  have hback : ∀ b ∈ r'.noms, b = ⟨c, a⟩ ∨ HasN s.noms n b.owner b.amount := by
    intro b hb
    rcases (hN.own b.owner b.amount).1 ⟨r', hr', hb⟩ with ⟨e1, e2⟩ | g
    · left; obtain ⟨o, m⟩ := b; dsimp only at e1 e2; rw [e1, e2]
    · exact Or.inr g
  refine ⟨r', hr', ?_, ?_, hm, hold⟩
  · have nd : ∀ {l : List Bond}, Uniq l → l.Nodup := fun u => uniq_nodup u
    have n' := nd (hN.inv.n.some n r' hr').sorted.uniq
    unfold nominations
    rw [hr']
    cases hs : s.noms n with
    | none =>
      have : r'.noms.Perm [⟨c, a⟩] := by
        refine (List.perm_ext_iff_of_nodup n' (by simp)).2 fun b => ?_
        rw [List.mem_singleton]
        constructor
        · intro hb
          rcases hback b hb with e | ⟨r, e, _⟩
          · exact e
          · rw [hs] at e; cases e
        · rintro rfl; exact hm
      simpa using this.length_eq
    | some r =>
      have : r'.noms.Perm (⟨c, a⟩ :: r.noms) := by
        refine (List.perm_ext_iff_of_nodup n' (List.nodup_cons.2 ⟨fun hb => hN.fresh a ⟨r, hs, hb⟩, nd (h.n.some n r hs).sorted.uniq⟩)).2
          fun b => ?_
        rw [List.mem_cons]
        constructor
        · intro hb
          rcases hback b hb with e | ⟨r2, e, g⟩
          · exact Or.inl e
          · rw [hs] at e; injection e with e; subst e; exact Or.inr g
        · rintro (rfl | hb)
          · exact hm
          · exact hold r hs b hb
      simpa using this.length_eq
  · intro b hb
    rcases hback b hb with e | g
    · left; rw [e]
    · exact Or.inr g

private theorem split_fold_iff {P : Par} (hP : P.Sane) (he : P.enabled = true) (n : Nat) (l : List (Nat × Nat)) : ∀ s, Reach P s →
    (l = [] ∨ s.nlock n + (l.map Prod.snd).sum ≤ s.free n) →
    ((∃ x, l.foldl (splitStep P n) (some (s, nominations s n)) = some x) ↔ CanNominate P s n l) := by
  induction l with
  | nil =>
    intro s hs _
    have h := (hs.inv hP).g
    refine ⟨fun _ => ⟨fun _ _ e => absurd e List.not_mem_nil, List.nodup_nil, fun _ _ e => absurd e List.not_mem_nil,
      fun _ _ e => absurd e List.not_mem_nil, ?_, fun _ _ e => by cases e⟩, fun _ => ⟨_, rfl⟩⟩
    unfold nominations
    cases hn : s.noms n with
    | none => exact Nat.zero_le _
    | some r => exact (h.n.some n r hn).len
  | cons y l ih =>
    obtain ⟨c, a⟩ := y
    intro s hs hfree
    have h := (hs.inv hP).g
    have hfree : s.nlock n + (a + (l.map Prod.snd).sum) ≤ s.free n := by
      rcases hfree with e | e
      · cases e
      · simpa using e
    rw [List.foldl_cons]
    cases hc : s.cands c with
    | none =>
      have e : splitStep P n (some (s, nominations s n)) (c, a) = none := by unfold splitStep; dsimp only; rw [hc]
      rw [e, foldl_none (fun _ => rfl)]
      constructor
      · rintro ⟨_, e⟩; cases e
      · intro g
        obtain ⟨k, hk, _⟩ := g.room c a (List.mem_cons_self ..)
        rw [hc] at hk; cases hk
    | some k =>
    have hcount : k.info.count = k.top.list.length + k.bottom.list.length := (h.c.inv c k hc).cache.count
    have estep : splitStep P n (some (s, nominations s n)) (c, a) =
        (nominate P s n c a k.info.count (nominations s n)).map (fun s' => (s', nominations s n + 1)) := by
      unfold splitStep; dsimp only; rw [hc]
    have hcall : ∀ s1, nominate P s n c a k.info.count (nominations s n) = some s1 ↔
        call P s (.nominate n c a k.info.count (nominations s n)) = some s1 := by
      intro s1
      show _ ↔ nominateCall P s n c a k.info.count (nominations s n) = some s1
      unfold nominateCall
      rw [if_pos he]
    -- when this round is taken
    have hone : (∃ s1, nominate P s n c a k.info.count (nominations s n) = some s1) ↔
        RoomFor P k a ∧ P.minPer ≤ a ∧ (∀ r, s.noms n = some r → ∀ b ∈ r.noms, b.owner ≠ c) ∧ nominations s n + 1 ≤ P.maxPer ∧
        (s.noms n = none → s.cands n = none ∧ s.minTotal ≤ a) := by
      have hiff := C146_nominate_accepted_iff P hP s hs n c a k.info.count (nominations s n)
      have e : (∃ s1, nominate P s n c a k.info.count (nominations s n) = some s1) ↔
          Accepted P s (.nominate n c a k.info.count (nominations s n)) := by
        unfold Accepted; exact exists_congr hcall
      rw [e, hiff]
      have hmin := h.min
      have hper := hP.per.1
      unfold nominations
      cases hn : s.noms n with
      | none =>
        have hl := h.n.none n hn
        constructor
        · rintro ⟨_, ⟨k', e1, _, e3⟩, g | ⟨r, e, _⟩⟩
          · rw [hc] at e1; injection e1 with e1; subst e1
            obtain ⟨_, g2, g3, _⟩ := g
            exact ⟨e3, by omega, (fun _ e => by cases e), by simpa using hper, fun _ => ⟨g2, g3⟩⟩
          · cases e
        · rintro ⟨g1, _, _, _, g2⟩
          obtain ⟨g3, g4⟩ := g2 rfl
          exact ⟨he, ⟨k, hc, by omega, g1⟩, Or.inl ⟨rfl, g3, g4, by omega⟩⟩
      | some r =>
        have hl : s.nlock n = r.total := (h.n.some n r hn).lock
        constructor
        · rintro ⟨_, ⟨k', e1, _, e3⟩, ⟨e, _⟩ | ⟨r', e, g1, _, g3, g4, _⟩⟩
          · cases e
          · rw [hc] at e1; injection e1 with e1; subst e1
            injection e with e; subst e
            exact ⟨e3, g1, (fun r' e => by injection e with e; subst e; exact g4), by simpa using Nat.succ_le_of_lt g3, fun e => by cases e⟩
        · rintro ⟨g1, g2, g3, g4, _⟩
          exact ⟨he, ⟨k, hc, by omega, g1⟩, Or.inr ⟨r, rfl, g2, by simp, by simp only [Option.map_some, Option.getD_some] at g4; omega, g3 r rfl, by omega⟩⟩
    rw [estep]
    cases hx : nominate P s n c a k.info.count (nominations s n) with
    | none =>
      rw [Option.map_none, foldl_none (fun _ => rfl)]
      constructor
      · rintro ⟨_, e⟩; cases e
      · intro g
        exfalso
        obtain ⟨k', hk', g1⟩ := g.room c a (List.mem_cons_self ..)
        rw [hc] at hk'; injection hk' with hk'; subst hk'
        obtain ⟨s1, e⟩ := hone.2 ⟨g1, g.least c a (List.mem_cons_self ..), g.fresh c a (List.mem_cons_self ..),
          by have := g.places; rw [List.length_cons] at this; omega, fun e => g.first e (c, a) rfl⟩
        rw [hx] at e; cases e
    | some s1 =>
      obtain ⟨o1, o2, o3, o4, o5⟩ := hone.1 ⟨s1, hx⟩
      have hN := nominate_ok hP.ok hP.per.1 h hx
      obtain ⟨r', hr', hlen, hback, hmem, hold⟩ := after_nominate hP h hN
      have hs1 : Reach P s1 := by
        have := hs.step (.nominate n c a k.info.count (nominations s n))
        unfold step at this
        rw [(hcall s1).1 hx] at this
        exact this
      rw [Option.map_some, ← hlen]
      rw [ih s1 hs1 (Or.inr (by rw [hN.lock, hN.free]; omega))]
      have hcands : ∀ d, d ≠ c → s1.cands d = s.cands d := by
        intro d hd
        cases e : s.cands d with
        | none => exact hN.none d e
        | some x =>
          obtain ⟨x', e1, _, _, _, _, e2⟩ := hN.same d x e
          rw [e1, e2 hd]
      constructor
      · intro g
        have hnot : c ∉ l.map Prod.fst := by
          intro hm
          obtain ⟨⟨c', x⟩, hz, e⟩ := List.mem_map.1 hm
          dsimp only at e
          subst e
          exact g.fresh c' x hz r' hr' _ hmem rfl
        have hdc : ∀ d x, (d, x) ∈ l → d ≠ c := fun d x hd e => hnot (e ▸ List.mem_map.2 ⟨_, hd, rfl⟩)
        refine ⟨?_, List.nodup_cons.2 ⟨hnot, g.once⟩, ?_, ?_, ?_, ?_⟩
        · intro d x hd
          rcases List.mem_cons.1 hd with e | hd
          · obtain ⟨rfl, rfl⟩ := Prod.mk.inj e; exact ⟨k, hc, o1⟩
          · obtain ⟨k', e1, e2⟩ := g.room d x hd
            exact ⟨k', by rw [← hcands d (hdc d x hd)]; exact e1, e2⟩
        · intro d x hd r hr b hb
          rcases List.mem_cons.1 hd with e | hd
          · obtain ⟨rfl, rfl⟩ := Prod.mk.inj e; exact o3 r hr b hb
          · exact g.fresh d x hd r' hr' b (hold r hr b hb)
        · intro d x hd
          rcases List.mem_cons.1 hd with e | hd
          · obtain ⟨rfl, rfl⟩ := Prod.mk.inj e; exact o2
          · exact g.least d x hd
        · have := g.places; rw [List.length_cons]; omega
        · intro e x hx'
          injection hx' with hx'
          subst hx'
          exact o5 e
      · intro g
        obtain ⟨d1, d2⟩ := List.nodup_cons.1 g.once
        have hdc : ∀ d x, (d, x) ∈ l → d ≠ c := fun d x hd e => d1 (e ▸ List.mem_map.2 ⟨_, hd, rfl⟩)
        refine ⟨?_, d2, ?_, fun d x hd => g.least d x (List.mem_cons_of_mem _ hd), ?_, ?_⟩
        · intro d x hd
          obtain ⟨k', e1, e2⟩ := g.room d x (List.mem_cons_of_mem _ hd)
          exact ⟨k', by rw [hcands d (hdc d x hd)]; exact e1, e2⟩
        · intro d x hd r hr b hb
          rw [hr'] at hr; injection hr with hr; subst hr
          rcases hback b hb with e | ⟨r0, e, hb0⟩
          · rw [e]; exact (hdc d x hd).symm
          · exact g.fresh d x (List.mem_cons_of_mem _ hd) r0 e _ hb0
        · have := g.places; rw [List.length_cons] at this; omega
        · intro e; rw [hr'] at e; cases e

/-- C156: an amount can be nominated over several collators exactly when staking is enabled, the amount is free and at least the minimum
total for each of them, and their shares can be nominated. -/
theorem C156_split_nominate_accepted_iff (P : Par) (hP : P.Sane) (s : St) (hs : Reach P s) (n : Nat) (targets : List Nat)
    (amount block : Nat) :
    Accepted P s (.splitNominate n targets amount block) ↔
      P.enabled = true ∧ s.minTotal * targets.length ≤ amount ∧ amount ≤ s.nomFree n ∧
        CanNominate P s n (splitShares targets amount block) := by
  have h := (hs.inv hP).g
  unfold Accepted
  show (∃ s', splitAndNominate P s n targets amount block = some s') ↔ _
  unfold splitAndNominate
  cases he : P.enabled with
  | false => rw [if_pos rfl]; simp
  | true =>
  rw [if_neg (by simp)]
  by_cases h1 : amount < s.minTotal * targets.length
  · rw [if_pos h1]
    constructor
    · rintro ⟨_, e⟩; cases e
    · rintro ⟨_, e, _⟩; omega
  rw [if_neg h1]
  by_cases h2 : s.nomFree n < amount
  · rw [if_pos h2]
    constructor
    · rintro ⟨_, e⟩; cases e
    · rintro ⟨_, _, e, _⟩; omega
  rw [if_neg h2]
  dsimp only
  have hfree : splitShares targets amount block = [] ∨
      s.nlock n + ((splitShares targets amount block).map Prod.snd).sum ≤ s.free n := by
    by_cases hl : targets = []
    · left; subst hl; rfl
    · right
      have hlen : 0 < targets.length := List.length_pos_iff.2 hl
      have hsum := shares_sum (per := perCollator targets.length amount) (amount := amount) (block := block) hlen
      unfold splitShares
      rw [List.map_snd_zip (by rw [shares_length]; exact Nat.le_refl _), hsum]
      have hpos : 1 ≤ amount := by
        have h3 := h.min
        have h4 := hP.min
        have : 1 * 1 ≤ s.minTotal * targets.length := Nat.mul_le_mul (by omega) hlen
        omega
      unfold St.nomFree at h2
      cases hn : s.noms n with
      | none => rw [hn] at h2; rw [h.n.none n hn]; simp at h2; omega
      | some r => rw [hn] at h2; rw [(h.n.some n r hn).lock]; simp at h2; omega
  have hfold := split_fold_iff hP he n (splitShares targets amount block) s hs hfree
  rw [← hfold]
  constructor
  · rintro ⟨s', e⟩
    refine ⟨rfl, by omega, by omega, ?_⟩
    obtain ⟨x, hx, _⟩ := Option.map_eq_some_iff.1 e
    exact ⟨x, hx⟩
  · rintro ⟨_, _, _, x, hx⟩
    exact ⟨x.1, Option.map_eq_some_iff.2 ⟨x, hx, rfl⟩⟩

/-! ### The hypotheses are met -/

private def splitDemo (minTotal free : Nat) : St := run smallPar (St.init 2 minTotal 1 (fun _ => free))
  [.join 1 10 10 true, .join 8 10 10 true, .join 9 10 10 true]

/-- Whether somebody new may nominate the minimum for each of three collators depends on the block number: every share is rounded down
to less than the minimum total, and only in every third block the rest goes to the first collator. -/
theorem C156_depends_on_block :
    let s := splitDemo 10000000000 100000000000
    splitShares [1, 8, 9] 30000000000 3 = [(1, 10000000020), (8, 9999999990), (9, 9999999990)] ∧
    splitShares [1, 8, 9] 30000000000 4 = [(1, 9999999990), (8, 10000000020), (9, 9999999990)] ∧
    (call smallPar s (.splitNominate 2 [1, 8, 9] 30000000000 3)).isSome = true ∧
    (call smallPar s (.splitNominate 2 [1, 8, 9] 30000000000 4)).isSome = false ∧
    (call smallPar s (.splitNominate 2 [1, 8, 9] 30000000000 5)).isSome = false := by
  decide +kernel

example : Reach smallPar (splitDemo 10000000000 100000000000) := ⟨_, _, _, _, _, by decide, rfl⟩

example : (call smallPar (splitDemo 50 1000) (.splitNominate 2 [1, 9] 100 7)).isSome = true ∧
    (call smallPar (splitDemo 50 1000) (.splitNominate 2 [1, 9] 99 7)).isSome = false ∧
    (call smallPar (splitDemo 50 1000) (.splitNominate 2 [1, 1] 100 7)).isSome = false ∧
    (call smallPar (splitDemo 50 1000) (.splitNominate 8 [1, 9] 100 7)).isSome = false ∧
    (call smallPar (splitDemo 50 1000) (.splitNominate 2 [1, 7] 100 7)).isSome = false := by
  decide +kernel

end Verif.Staking
