import Verif.Props.StakingLive

/-! # C146, the call that adds to all nominations at once -/

namespace Verif.Staking

private theorem bondExtra_fold_some {P : Par} (hP : P.Sane) (he : P.enabled = true) (n : Nat) (l : List (Nat × Nat)) :
    ∀ s, Reach P s → (l.map Prod.fst).Nodup → (∀ c k, (c, k) ∈ l → ∃ a, HasN s.noms n c a) →
      (∀ c k, (c, k) ∈ l → ∀ q ∈ s.reqs c, q.nominator = n → q.revoke = false) →
      (l.map Prod.snd).sum + s.nlock n ≤ s.free n →
      ∃ s', l.foldl (bondExtraStep P n) (some s) = some s' := by
  induction l with
  | nil => intro s _ _ _ _ _; exact ⟨s, rfl⟩
  | cons y l ih =>
    intro s hs hnd hh hr hsum
    obtain ⟨c, a⟩ := y
    obtain ⟨hd1, hd2⟩ := List.nodup_cons.1 hnd
    have h := (hs.inv hP).g
    obtain ⟨b, r, hn, hm⟩ := hh c a (List.mem_cons_self ..)
    have hlock : s.nlock n = r.total := (h.n.some n r hn).lock
    rw [List.map_cons, List.sum_cons] at hsum
    obtain ⟨s1, h1⟩ := (C146_bond_extra_accepted_iff P hP s hs n c a).2 ⟨he, hr c a (List.mem_cons_self ..), r, b, hn, hm, by omega⟩
    have h1' : bondExtra P s n c a = some s1 := by
      have : bondExtraCall P s n c a = some s1 := h1
      unfold bondExtraCall at this
      rw [if_pos he] at this
      exact this
    have hB := bondExtra_ok hP.ok h h1'
    obtain ⟨b', _, hb2⟩ := hB.bond
    have hs1 : Reach P s1 := by
      have := hs.step (.bondExtra n c a)
      unfold step at this
      rw [h1] at this
      exact this
    have hne : ∀ d k, (d, k) ∈ l → d ≠ c := fun d k hk e => hd1 (e ▸ List.mem_map.2 ⟨_, hk, rfl⟩)
    rw [List.foldl_cons]
    have e : bondExtraStep P n (some s) (c, a) = some s1 := h1'
    rw [e]
    refine ih s1 hs1 hd2 ?_ ?_ ?_
    · intro d k hk
      obtain ⟨x, hx⟩ := hh d k (List.mem_cons_of_mem _ hk)
      exact ⟨x, (hb2 n d x).2 (Or.inr ⟨hx, fun e => hne d k hk e.2⟩)⟩
    · intro d k hk q hq
      rw [hB.reqs] at hq
      exact hr d k (List.mem_cons_of_mem _ hk) q hq
    · rw [hB.lock, hB.same.free]
      dsimp only at hsum
      omega

/-- C146: an amount can be spread over all of one's nominations exactly when it is free, each share (the amount times one over the
number of nominations) is at least the minimum, and no nomination is being revoked. -/
theorem C146_bond_extra_all_accepted_iff (P : Par) (hP : P.Sane) (s : St) (hs : Reach P s) (n amount block : Nat) :
    Accepted P s (.bondExtraAll n amount block) ↔
      P.enabled = true ∧ ∃ r, s.noms n = some r ∧ amount ≤ s.free n - r.total ∧ P.minPer ≤ perCollator r.noms.length amount ∧
        ∀ b ∈ r.noms, ∀ q ∈ s.reqs b.owner, q.nominator = n → q.revoke = false := by
  have h := (hs.inv hP).g
  constructor
  · rintro ⟨s', e⟩
    obtain ⟨r, hn, he, hf, hmin, hx⟩ := bondExtraAll_ok hP.ok h (e : bondExtraAll P s n amount block = some s')
    have hfree : s.nomFree n = s.free n - r.total := by unfold St.nomFree; rw [hn]; rfl
    refine ⟨he, r, hn, by omega, hmin, ?_⟩
    intro b hb
    have hlen : (r.noms.map Bond.owner).length ≤ (shares (perCollator r.noms.length amount)
      (amount - perCollator r.noms.length amount * r.noms.length) block r.noms.length r.noms.length 0 amount).length := by
      rw [shares_length, List.length_map]; exact Nat.le_refl _
    have : b.owner ∈ ((r.noms.map Bond.owner).zip (shares (perCollator r.noms.length amount)
      (amount - perCollator r.noms.length amount * r.noms.length) block r.noms.length r.noms.length 0 amount)).map Prod.fst := by
      rw [List.map_fst_zip hlen]; exact List.mem_map_of_mem hb
    obtain ⟨⟨c, k⟩, hck, rfl⟩ := List.mem_map.1 this
    exact hx.noRevoke _ _ hck
  · rintro ⟨he, r, hn, hf, hmin, hq⟩
    have hfree : s.nomFree n = s.free n - r.total := by unfold St.nomFree; rw [hn]; rfl
    have hR := h.n.some n r hn
    have hpos : 0 < r.noms.length := List.length_pos_iff.2 hR.ne
    unfold Accepted call bondExtraAll
    dsimp only
    rw [if_neg (by rw [he]; simp), if_neg (by omega), hn]
    dsimp only
    rw [if_neg (by omega)]
    have hlen : (r.noms.map Bond.owner).length = (shares (perCollator r.noms.length amount)
      (amount - perCollator r.noms.length amount * r.noms.length) block r.noms.length r.noms.length 0 amount).length := by
      rw [shares_length, List.length_map]
    have hsum := shares_sum (per := perCollator r.noms.length amount) (amount := amount) (block := block) hpos
    revert hlen hsum
    generalize shares (perCollator r.noms.length amount)
      (amount - perCollator r.noms.length amount * r.noms.length) block r.noms.length r.noms.length 0 amount = l
    intro hlen hsum
    have hmem : ∀ c k, (c, k) ∈ (r.noms.map Bond.owner).zip l → ∃ b ∈ r.noms, b.owner = c :=
      fun c k hk => List.mem_map.1 (List.of_mem_zip hk).1
    refine bondExtra_fold_some hP he n _ s hs ?_ ?_ ?_ ?_
    · rw [List.map_fst_zip (by omega)]; exact hR.sorted.uniq
    · intro c k hk
      obtain ⟨b, hb, rfl⟩ := hmem c k hk
      exact ⟨b.amount, r, hn, hb⟩
    · intro c k hk
      obtain ⟨b, hb, rfl⟩ := hmem c k hk
      exact hq b hb
    · rw [List.map_snd_zip (by omega), hsum, hR.lock]
      have ha : amount ≠ 0 := by
        intro e
        rw [e] at hmin
        have e0 : perCollator r.noms.length 0 = 0 := by
          unfold perCollator perbillMul divNearestDown
          rw [Nat.mul_zero, Nat.zero_div, Nat.zero_mod, if_neg (Nat.not_lt_zero _)]
        have := hP.min
        omega
      omega

/-! The hypotheses are met. -/

private def spreadDemo : St := run smallPar (St.init 2 5 10 (fun _ => 1000))
  [.join 1 10 10 true, .join 9 10 10 true, .nominate 2 1 35 10 10, .nominate 2 9 36 10 10]

example : Reach smallPar spreadDemo := ⟨_, _, _, _, _, by decide, rfl⟩

/-- Account 2 has 71 of its 1000 bound. -/
example : (call smallPar spreadDemo (.bondExtraAll 2 31 4)).isSome = true ∧ (call smallPar spreadDemo (.bondExtraAll 2 930 4)).isSome = false ∧
    (call smallPar (run smallPar spreadDemo [.scheduleRevoke 2 1]) (.bondExtraAll 2 31 4)).isSome = false := by
  decide +kernel

end Verif.Staking
