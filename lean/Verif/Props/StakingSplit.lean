import Verif.Props.StakingUnbond

/-!
# C47: amounts spread over several collators

The specification is about sums of what the nominator has bonded (`bondOf`) and about its balance lock.
-/

namespace Verif.Staking

variable {P : Par} {s s' : St}

private theorem bondOf_has (h : GInv P s) {n c a : Nat} (ha : HasN s.noms n c a) : bondOf s n c = a := by
  obtain ⟨r, hr, hb⟩ := ha
  unfold bondOf
  rw [hr]
  have : r.noms.find? (fun b => decide (b.owner = c)) = some ⟨c, a⟩ :=
    findOwner_mem (d := ⟨c, a⟩) (h.n.some n r hr).sorted.uniq hb
  dsimp only
  rw [this]
  rfl

private theorem bondOf_none {n c : Nat} (h : ∀ x, ¬ HasN s.noms n c x) : bondOf s n c = 0 := by
  unfold bondOf
  cases hr : s.noms n with
  | none => rfl
  | some r =>
    dsimp only
    cases hf : r.noms.find? (fun b => decide (b.owner = c)) with
    | none => rfl
    | some b =>
      exfalso
      have h1 := List.mem_of_find?_eq_some hf
      have h2 := List.find?_some hf
      simp only [decide_eq_true_eq] at h2
      subst h2
      exact h b.amount ⟨r, hr, h1⟩

private theorem bondOf_congr (h : GInv P s) (h' : GInv P s') {n c : Nat} (e : ∀ x, HasN s'.noms n c x ↔ HasN s.noms n c x) :
    bondOf s' n c = bondOf s n c := by
  by_cases hx : ∃ x, HasN s.noms n c x
  · obtain ⟨x, hx⟩ := hx
    rw [bondOf_has h hx, bondOf_has h' ((e x).2 hx)]
  · rw [bondOf_none (fun x hx' => hx ⟨x, hx'⟩), bondOf_none (fun x hx' => hx ⟨x, (e x).1 hx'⟩)]

private theorem zip_map {α : Type _} (f : α → Nat) (ts : List α) (sh : List Nat) (hl : ts.length = sh.length)
    (h : ∀ p ∈ ts.zip sh, f p.1 = p.2) : ts.map f = sh := by
  induction ts generalizing sh with
  | nil => cases sh with
    | nil => rfl
    | cons x sh => cases hl
  | cons t ts ih => cases sh with
    | nil => cases hl
    | cons x sh =>
      rw [List.map_cons, h (t, x) (by simp), ih sh (by simpa using hl) (fun p hp => h p (by simp [hp]))]

private theorem sum_map_add (f g : Bond → Nat) (l : List Bond) :
    (l.map (fun b => f b + g b)).sum = (l.map f).sum + (l.map g).sum := by
  induction l with
  | nil => rfl
  | cons b l ih => simp only [List.map_cons, List.sum_cons, ih]; omega

/-- C47: nominating `amount` over one or more collators bonds exactly `amount` in total, all of it new, with those collators and
nobody else, and the balance lock grows by exactly `amount`. -/
theorem C47_split_bonds_exactly (P : Par) (hP : P.Sane) (s s' : St) (hs : Reach P s) (n : Nat) (targets : List Nat)
    (amount block : Nat) (hne : targets ≠ []) (h : call P s (.splitNominate n targets amount block) = some s') :
    (targets.map (bondOf s' n)).sum = amount ∧ targets.Nodup ∧ (∀ c ∈ targets, bondOf s n c = 0) ∧
    (∀ c, c ∉ targets → bondOf s' n c = bondOf s n c) ∧ s'.nlock n = s.nlock n + amount := by
  have hi := (hs.inv hP).g
  obtain ⟨_, _, _, hsp⟩ := splitAndNominate_ok hP.ok hP.per.1 hi h
  have hlen : 0 < targets.length := List.length_pos_iff.2 hne
  have hsum := shares_sum (per := perCollator targets.length amount) (amount := amount) (block := block) hlen
  generalize hsh : shares (perCollator targets.length amount) (amount - perCollator targets.length amount * targets.length) block
      targets.length targets.length 0 amount = sh at hsp hsum
  have hl : targets.length = sh.length := by rw [← hsh, shares_length]
  have hfst : (targets.zip sh).map Prod.fst = targets := List.map_fst_zip (by omega)
  have hsnd : (targets.zip sh).map Prod.snd = sh := List.map_snd_zip (by omega)
  have hmem : ∀ c ∈ targets, ∃ x, (c, x) ∈ targets.zip sh := by
    intro c hc
    rw [← hfst] at hc
    obtain ⟨⟨c', x⟩, hx, rfl⟩ := List.mem_map.1 hc
    exact ⟨x, hx⟩
  refine ⟨?_, ?_, ?_, ?_, ?_⟩
  · rw [zip_map (bondOf s' n) targets sh hl, hsum]
    rintro ⟨c, x⟩ hx
    exact bondOf_has hsp.inv ((hsp.own c x).2 (Or.inl hx))
  · have := hsp.distinct; rw [hfst] at this; exact this
  · intro c hc
    obtain ⟨x, hx⟩ := hmem c hc
    exact bondOf_none (hsp.fresh c x hx)
  · intro c hc
    refine bondOf_congr hi hsp.inv (fun x => ?_)
    rw [hsp.own]
    constructor
    · rintro (e | e)
      · exact absurd (by rw [← hfst]; exact List.mem_map_of_mem (f := Prod.fst) e) hc
      · exact e
    · exact Or.inr
  · rw [hsp.lock, hsnd, hsum]

/-- C47: with no collators at all the call succeeds and bonds nothing, whatever the amount. -/
theorem C47_no_collators_bonds_nothing (P : Par) (s : St) (n amount block : Nat) (he : P.enabled = true) (hf : amount ≤ s.nomFree n) :
    call P s (.splitNominate n [] amount block) = some s := by
  show splitAndNominate P s n [] amount block = some s
  unfold splitAndNominate
  rw [if_neg (by rw [he]; simp), if_neg (by simp), if_neg (by omega)]
  rfl

/-- C47: bonding `amount` more over the existing nominations adds exactly `amount` to their sum and to the balance lock, takes
nothing from any of them, and adds no new one. -/
theorem C47_bond_extra_bonds_exactly (P : Par) (hP : P.Sane) (s s' : St) (hs : Reach P s) (n amount block : Nat)
    (h : call P s (.bondExtraAll n amount block) = some s') :
    ∃ r, s.noms n = some r ∧
      (r.noms.map (fun b => bondOf s' n b.owner)).sum = (r.noms.map (fun b => bondOf s n b.owner)).sum + amount ∧
      (∀ c, bondOf s n c ≤ bondOf s' n c) ∧ (∀ c, c ∉ r.noms.map (fun b => b.owner) → bondOf s' n c = bondOf s n c) ∧
      s'.nlock n = s.nlock n + amount := by
  have hi := (hs.inv hP).g
  obtain ⟨r, hr, _, _, _, hsp⟩ := bondExtraAll_ok hP.ok hi h
  have hlen : 0 < r.noms.length := List.length_pos_iff.2 (hi.n.some n r hr).ne
  have hsum := shares_sum (per := perCollator r.noms.length amount) (amount := amount) (block := block) hlen
  generalize hsh : shares (perCollator r.noms.length amount) (amount - perCollator r.noms.length amount * r.noms.length) block
      r.noms.length r.noms.length 0 amount = sh at hsp hsum
  have hl : (r.noms.map Bond.owner).length = sh.length := by rw [← hsh, shares_length, List.length_map]
  have hfst : ((r.noms.map Bond.owner).zip sh).map Prod.fst = r.noms.map Bond.owner := List.map_fst_zip (by omega)
  have hsnd : ((r.noms.map Bond.owner).zip sh).map Prod.snd = sh := List.map_snd_zip (by omega)
  have hown : ∀ c k, (c, k) ∈ (r.noms.map Bond.owner).zip sh → bondOf s' n c = bondOf s n c + k := by
    intro c k hck
    obtain ⟨a, g1, g2⟩ := hsp.own c k hck
    rw [bondOf_has hi g1, bondOf_has hsp.inv ((g2 (a + k)).2 rfl)]
  have hout : ∀ c, c ∉ r.noms.map Bond.owner → bondOf s' n c = bondOf s n c := by
    intro c hc
    exact bondOf_congr hi hsp.inv (fun x => hsp.others n c x (by rw [hfst]; exact fun e => hc e.2))
  refine ⟨r, hr, ?_, ?_, hout, by rw [hsp.lock, hsnd, hsum]⟩
  · have key := zip_map (fun c => bondOf s' n c - bondOf s n c) (r.noms.map Bond.owner) sh hl (by
      rintro ⟨c, k⟩ hck
      have := hown c k hck
      dsimp only
      omega)
    rw [List.map_map] at key
    have e : (r.noms.map (fun b => bondOf s' n b.owner)) =
        r.noms.map (fun b => bondOf s n b.owner + ((fun c => bondOf s' n c - bondOf s n c) ∘ Bond.owner) b) := by
      apply List.map_congr_left
      intro b hb
      have hbm : b.owner ∈ ((r.noms.map Bond.owner).zip sh).map Prod.fst := by rw [hfst]; exact List.mem_map_of_mem hb
      obtain ⟨⟨c, k⟩, hck, hc⟩ := List.mem_map.1 hbm
      dsimp only at hc
      subst hc
      have := hown _ k hck
      simp only [Function.comp]
      omega
    rw [e, sum_map_add, key, hsum]
  · intro c
    by_cases hc : c ∈ r.noms.map Bond.owner
    · rw [← hfst] at hc
      obtain ⟨⟨c', k⟩, hck, rfl⟩ := List.mem_map.1 hc
      show bondOf s n c' ≤ bondOf s' n c'
      rw [hown c' k hck]; omega
    · rw [hout c hc]; exact Nat.le_refl _

/-- C47, the part that holds of the single amounts: the regular share is the exact average up to half a unit above and, below, half
a unit plus one part in a billion of the amount. Missing: "at least the integer average", which fails. -/
theorem C47_regular_share_bounds_partial (n amount : Nat) (hn : 0 < n) :
    2 * (n * perCollator n amount) ≤ 2 * amount + n ∧
    1000000000 * amount ≤ n * (1000000000 * perCollator n amount + amount + 500000000) := by
  have hq : perbillFromRational 1 n = 1000000000 / n := by
    unfold perbillFromRational billion
    have h1 : max n 1 = n := by omega
    have h2 : min 1 n = 1 := by omega
    simp only [h1, h2, Nat.one_mul]
  unfold perCollator
  rw [hq]
  generalize hx : 1000000000 / n = x
  have hx1 : n * x ≤ 1000000000 := by rw [← hx]; exact Nat.mul_div_le _ _
  have hx2 : 1000000000 ≤ n * x + n := by
    rw [← hx]
    have := Nat.div_add_mod 1000000000 n
    have := Nat.mod_lt 1000000000 hn
    omega
  unfold perbillMul divNearestDown billion
  have hround : ∀ y p : Nat, y / 1000000000 + (if 1000000000 / 2 < y % 1000000000 then 1 else 0) = p →
      2 * (1000000000 * p) ≤ 2 * y + 1000000000 ∧ y ≤ 1000000000 * p + 500000000 := by
    intro y p hp
    by_cases hc : 1000000000 / 2 < y % 1000000000
    · rw [if_pos hc] at hp; omega
    · rw [if_neg hc] at hp; omega
  generalize hp : x * amount / 1000000000 + (if 1000000000 / 2 < x * amount % 1000000000 then 1 else 0) = p
  obtain ⟨h1, h2⟩ := hround _ _ hp
  constructor
  · have e1 : n * (2 * (1000000000 * p)) ≤ n * (2 * (x * amount) + 1000000000) := Nat.mul_le_mul_left n h1
    have e2 : (n * x) * amount ≤ 1000000000 * amount := Nat.mul_le_mul_right amount hx1
    have e3 : n * (2 * (x * amount) + 1000000000) = 2 * ((n * x) * amount) + 1000000000 * n := by
      rw [Nat.mul_add, Nat.mul_left_comm n 2, Nat.mul_assoc n x, Nat.mul_comm n 1000000000]
    have e4 : n * (2 * (1000000000 * p)) = 1000000000 * (2 * (n * p)) := by
      rw [Nat.mul_left_comm n 2, Nat.mul_left_comm n 1000000000, Nat.mul_left_comm 2 1000000000]
    rw [e3, e4] at e1
    omega
  · have e1 : 1000000000 * amount ≤ (n * x + n) * amount := Nat.mul_le_mul_right amount hx2
    have e2 : n * (x * amount) ≤ n * (1000000000 * p + 500000000) := Nat.mul_le_mul_left n h2
    have e3 : (n * x + n) * amount = n * (x * amount) + n * amount := by rw [Nat.add_mul, Nat.mul_assoc]
    have e4 : n * (1000000000 * p + amount + 500000000) = n * (1000000000 * p + 500000000) + n * amount := by
      rw [← Nat.mul_add]; congr 1; omega
    omega

private theorem share_at (per n amount block : Nat) (hn : 0 < n) (hle : per * n ≤ amount) (i x : Nat)
    (hx : (shares per (amount - per * n) block n n 0 amount)[i]? = some x) :
    x = if i = block % n then per + (amount - per * n) else per := by
  by_cases hd : amount - per * n = 0
  · have he : amount = per * n := by omega
    subst he
    rw [hd] at hx
    have key : ∀ k index i x : Nat, (shares per 0 block n k index (per * k))[i]? = some x → x = per := by
      intro k
      induction k with
      | zero => intro index i x h; simp [shares] at h
      | succ k ih =>
        intro index i x h
        have h1 : shareOf per 0 block n index (per * (k + 1)) = per := by
          unfold shareOf getsDust
          have : per ≤ per * (k + 1) := Nat.le_mul_of_pos_right _ (Nat.succ_pos k)
          simp [Nat.min_eq_right this]
        have h2 : per * (k + 1) - per = per * k := by rw [Nat.mul_succ]; omega
        simp only [shares, h1, h2] at h
        cases i with
        | zero => simpa using h.symm
        | succ i => exact ih _ i x (by simpa using h)
    rw [key n 0 i x (by rw [Nat.mul_comm] at hx ⊢; exact hx), hd]
    simp
  · have he : per * n + (amount - per * n) = amount := by omega
    have := (shares_sum_dust (per := per) (block := block) (n := n) hd n 0 (by omega) (Nat.zero_le _) (Nat.mod_lt _ hn)).2 i x
      (by rw [he]; exact hx)
    rw [Nat.zero_add] at this
    exact this

/-- C47, the part that holds of the single amounts: unless rounding up made the regular shares exceed the amount, every collator
gets the regular share, except one, chosen by the block number, which also gets the remainder. -/
theorem C47_one_collator_gets_remainder_partial (n amount block : Nat) (hn : 0 < n) (hle : perCollator n amount * n ≤ amount) (i x : Nat)
    (hx : (shares (perCollator n amount) (amount - perCollator n amount * n) block n n 0 amount)[i]? = some x) :
    x = if i = block % n then perCollator n amount + (amount - perCollator n amount * n) else perCollator n amount :=
  share_at (perCollator n amount) n amount block hn hle i x hx

/-- The counterexample to "every collator gets at least the integer average": ten billion over three collators, where the first
two get 3333333330 and the average is 3333333333. -/
theorem C47_share_below_average :
    shares (perCollator 3 10000000000) (10000000000 - perCollator 3 10000000000 * 3) 2 3 3 0 10000000000 =
      [3333333330, 3333333330, 3333333340] ∧ 10000000000 / 3 = 3333333333 := by decide +kernel

/-- A second counterexample: rounding up starves the last ones; 31 over 20 collators gives nothing to the last four. -/
theorem C47_share_can_be_zero :
    shares (perCollator 20 31) (31 - perCollator 20 31 * 20) 0 20 20 0 31 = List.replicate 15 2 ++ [1, 0, 0, 0, 0] := by decide +kernel

/-- C47: unbonding `less` over the nominations schedules decreases with different collators that add up to exactly `less`, each
leaving at least the minimum nomination (where a collator's list has room; see C46); bonds and locks do not change yet. -/
theorem C47_unbond_schedules_exactly (P : Par) (hP : P.Sane) (s s' : St) (hs : Reach P s) (n less : Nat)
    (h : call P s (.scheduleUnbondAll n less) = some s') :
    ∃ l : List (Nat × Nat), (l.map Prod.snd).sum = less ∧ (l.map Prod.fst).Nodup ∧
      (∀ c k, (c, k) ∈ l → k + P.minPer ≤ bondOf s n c ∧ NoRequest s n c ∧
        ((s.reqs c).length < P.maxPer → (⟨n, false, k, s.era + s.delay⟩ : Req) ∈ s'.reqs c)) ∧
      (∀ c, c ∉ l.map Prod.fst → s'.reqs c = s.reqs c) ∧ (∀ m c, bondOf s' m c = bondOf s m c) ∧ s'.nlock = s.nlock := by
  have hi := (hs.inv hP).g
  obtain ⟨l, hsp, hsum, hnd, _⟩ := scheduleUnbondAll_ok hi h
  refine ⟨l, hsum, hnd, ?_, hsp.out, fun m c => bondOf_congr hi hsp.only.inv (hsp.only.bonds m c), hsp.only.locks⟩
  intro c k hck
  obtain ⟨g1, ⟨a, g2, g3⟩, g4⟩ := hsp.own c k hck
  refine ⟨by rw [bondOf_has hi g2]; exact g3, g1, ?_⟩
  intro hroom
  rw [g4, if_pos hroom]
  simp

/-! ### The hypotheses are met -/

private def spread : St := run smallPar (St.init 2 1 1 (fun _ => 1000)) [.join 1 10 10 true, .join 9 10 10 true, .splitNominate 2 [1, 9] 71 5]

example : Reach smallPar spread := ⟨_, _, _, _, _, by decide, rfl⟩

example : (bondOf spread 2 1, bondOf spread 2 9, spread.nlock 2) = (35, 36, 71) := by decide +kernel

example : (call smallPar spread (.bondExtraAll 2 31 4)).map (fun s => (bondOf s 2 1, bondOf s 2 9, s.nlock 2)) = some (51, 51, 102) := by
  decide +kernel

example : (call smallPar spread (.scheduleUnbondAll 2 30)).map (fun s => (s.reqs 1 ++ s.reqs 9)) =
    some [⟨2, false, 15, 3⟩, ⟨2, false, 15, 3⟩] := by decide +kernel

end Verif.Staking
