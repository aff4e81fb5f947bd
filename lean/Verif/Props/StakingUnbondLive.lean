import Verif.Props.StakingLive

/-!
# C155: taking an amount out of all nominations at once

For states reached by any history of calls: exactly when `signed_schedule_nominator_unbond`, which spreads one withdrawal over a
nominator's nominations, is accepted.
-/

namespace Verif.Staking

/-! ### Specification -/

/-- The nominations asked to contribute, in order: each gives what it has above `target`, until that covers the withdrawal. -/
def contributors (target : Nat) : List Bond → Nat → List Bond
  | [], _ => []
  | b :: l, out => if out ≤ b.amount - target then [b] else b :: contributors target l (out - (b.amount - target))

/-! ### Proof -/

/-- The same nominations with what each gives above `target`. -/
private def given (target : Nat) : List Bond → Nat → List (Bond × Nat)
  | [], _ => []
  | b :: l, out => if out ≤ b.amount - target then [(b, out)] else (b, b.amount - target) :: given target l (out - (b.amount - target))

private def payer (minPer : Nat) (v : Bond × Nat) : Payer := ⟨v.1.owner, v.1.amount - (v.2 + minPer), v.2⟩

private theorem given_fst (target : Nat) (l : List Bond) : ∀ out, (given target l out).map Prod.fst = contributors target l out := by
  induction l with
  | nil => intro _; rfl
  | cons b l ih =>
    intro out
    unfold given contributors
    by_cases h : out ≤ b.amount - target
    · rw [if_pos h, if_pos h]; rfl
    · rw [if_neg h, if_neg h, List.map_cons, ih]

private theorem contributors_sublist (target : Nat) (l : List Bond) : ∀ out, (contributors target l out).Sublist l := by
  induction l with
  | nil => intro _; exact List.Sublist.slnil
  | cons b l ih =>
    intro out
    unfold contributors
    by_cases h : out ≤ b.amount - target
    · rw [if_pos h]; exact (List.nil_sublist l).cons₂ b
    · rw [if_neg h]; exact (ih _).cons₂ b

private theorem given_some {minPer target : Nat} (ht : minPer ≤ target) (l : List Bond) (hl : ∀ b ∈ l, minPer ≤ b.amount) : ∀ out,
    ∀ v ∈ given target l out, v.2 + minPer ≤ v.1.amount := by
  induction l with
  | nil => intro _ v hv; cases hv
  | cons b l ih =>
    intro out v hv
    have hb := hl b (List.mem_cons_self ..)
    unfold given at hv
    by_cases h : out ≤ b.amount - target
    · rw [if_pos h] at hv
      rw [List.mem_singleton.1 hv]; dsimp only; omega
    · rw [if_neg h] at hv
      rcases List.mem_cons.1 hv with rfl | hv
      · dsimp only; omega
      · exact ih (fun b hb => hl b (List.mem_cons_of_mem _ hb)) _ v hv

private theorem loop_eq (minPer target : Nat) (l : List Bond) : ∀ out,
    (payersLoop minPer target l out).1 = (given target l out).map (payer minPer) ∧
    ((given target l out).map Prod.snd).sum + (payersLoop minPer target l out).2 = out := by
  induction l with
  | nil => intro out; simp [payersLoop, given]
  | cons b l ih =>
    intro out
    unfold payersLoop given
    dsimp only
    rw [if_pos (by omega)]
    by_cases h : out ≤ b.amount - target
    · rw [if_pos (by omega), if_pos h, Nat.min_eq_left h]
      exact ⟨rfl, by simp⟩
    · have hm : min out (b.amount - target) = b.amount - target := Nat.min_eq_right (by omega)
      rw [hm, if_neg (by omega), if_neg h]
      obtain ⟨e1, e2⟩ := ih (out - (b.amount - target))
      rw [List.map_cons, List.map_cons, List.sum_cons]
      refine ⟨by rw [e1]; rfl, ?_⟩
      dsimp only
      omega

private theorem fold_none {P : Par} {n : Nat} (l : List Payer) : l.foldl (unbondStep P n) none = none := by
  induction l with
  | nil => rfl
  | cons p l ih => rw [List.foldl_cons]; exact ih

private theorem fold_iff {P : Par} (hpos : 1 ≤ P.minPer) (n : Nat) (vs : List (Bond × Nat)) : ∀ (s : St) (r : Nomr) (out : Nat),
    s.noms n = some r → Uniq r.noms → Uniq (vs.map Prod.fst) → (∀ v ∈ vs, v.1 ∈ r.noms ∧ v.2 + P.minPer ≤ v.1.amount) →
    (vs.map Prod.snd).sum + out ≤ r.total - r.less - s.minTotal →
    ((∃ x, (vs.map (payer P.minPer)).foldl (unbondStep P n) (some (s, out)) = some x ∧ x.2 = 0) ↔
      (∀ v ∈ vs, NoRequest s n v.1.owner) ∧ out ≤ (vs.map fun v => v.1.amount - (v.2 + P.minPer)).sum) := by
  induction vs with
  | nil =>
    intro s r out _ _ _ _ _
    constructor
    · rintro ⟨x, e, e2⟩
      injection e with e
      subst e
      exact ⟨fun v hv => absurd hv List.not_mem_nil, by simpa using Nat.le_of_eq e2⟩
    · rintro ⟨_, g⟩
      exact ⟨_, rfl, by simpa using g⟩
  | cons v vs ih =>
    intro s r out hr hu huv hv hsum
    obtain ⟨hm, hle⟩ := hv v (List.mem_cons_self ..)
    obtain ⟨d1, d2⟩ := List.nodup_cons.1 huv
    have hne : ∀ w ∈ vs, w.1.owner ≠ v.1.owner := fun w hw e =>
      d1 (e ▸ List.mem_map_of_mem (List.mem_map_of_mem hw))
    rw [List.map_cons, List.sum_cons] at hsum
    rw [List.map_cons, List.foldl_cons, List.map_cons, List.sum_cons]
    have hstep : unbondStep P n (some (s, out)) (payer P.minPer v) =
        (scheduleDecrease P s n v.1.owner (v.2 + min (v.1.amount - (v.2 + P.minPer)) out)).map
          (fun s' => (s', out - min (v.1.amount - (v.2 + P.minPer)) out)) := rfl
    rw [hstep]
    by_cases hno : NoRequest s n v.1.owner
    · have hany : (s.reqs v.1.owner).any (Req.by n) = false := any_by.2 hno
      -- the step is taken, and leaves the record and the other requests as the rest needs them
      have key : ∃ s1 r1, scheduleDecrease P s n v.1.owner (v.2 + min (v.1.amount - (v.2 + P.minPer)) out) = some s1 ∧
          s1.noms n = some r1 ∧ r1.noms = r.noms ∧ r1.total = r.total ∧ s1.minTotal = s.minTotal ∧
          r1.less ≤ r.less + (v.2 + min (v.1.amount - (v.2 + P.minPer)) out) ∧
          ∀ c, c ≠ v.1.owner → s1.reqs c = s.reqs c := by
        unfold scheduleDecrease
        rw [hr]
        dsimp only
        rw [hany, if_neg (by simp), findOwner_mem hu hm]
        dsimp only
        rw [if_neg (by omega), if_neg (by omega), if_neg (by omega)]
        by_cases hl : (s.reqs v.1.owner).length < P.maxPer
        · rw [if_pos hl]
          exact ⟨_, _, rfl, upd_same _ _ _, rfl, rfl, rfl, Nat.le_refl _, fun c hc => upd_ne _ _ hc⟩
        · rw [if_neg hl]
          exact ⟨s, r, rfl, hr, rfl, rfl, rfl, by omega, fun c _ => rfl⟩
      obtain ⟨s1, r1, k1, k2, k3, k4, k5, k6, k7⟩ := key
      rw [k1, Option.map_some]
      rw [ih s1 r1 _ k2 (k3 ▸ hu) d2 (fun w hw => k3 ▸ hv w (List.mem_cons_of_mem _ hw)) (by rw [k4, k5]; omega)]
      have hreq : (∀ w ∈ vs, NoRequest s1 n w.1.owner) ↔ ∀ w ∈ vs, NoRequest s n w.1.owner :=
        forall₂_congr fun w hw => by unfold NoRequest; rw [k7 _ (hne w hw)]
      rw [hreq]
      constructor
      · rintro ⟨g1, g2⟩
        refine ⟨fun w hw => ?_, by omega⟩
        rcases List.mem_cons.1 hw with rfl | hw
        · exact hno
        · exact g1 w hw
      · rintro ⟨g1, g2⟩
        exact ⟨fun w hw => g1 w (List.mem_cons_of_mem _ hw), by omega⟩
    · have hany : (s.reqs v.1.owner).any (Req.by n) = true := by
        rw [← Bool.not_eq_false]; exact fun e => hno (any_by.1 e)
      have e : scheduleDecrease P s n v.1.owner (v.2 + min (v.1.amount - (v.2 + P.minPer)) out) = none := by
        unfold scheduleDecrease
        rw [hr]
        dsimp only
        rw [hany, if_pos rfl]
      rw [e, Option.map_none, fold_none]
      constructor
      · rintro ⟨_, e, _⟩; cases e
      · rintro ⟨g, _⟩; exact absurd (g v (List.mem_cons_self ..)) hno

/-- C155: a withdrawal spread over one's nominations is accepted exactly when the stake after it and everything already asked for is at
least the minimum total, the average that remains (that stake times one over the number of nominations) is at least the minimum, no
nomination asked to contribute has a pending request, and those nominations can give the amount and keep the minimum. -/
theorem C155_schedule_unbond_all_accepted_iff (P : Par) (hP : P.Sane) (s : St) (hs : Reach P s) (n less : Nat) :
    Accepted P s (.scheduleUnbondAll n less) ↔
      ∃ r, s.noms n = some r ∧ s.minTotal + less ≤ r.total - r.less ∧
        P.minPer ≤ perCollator r.noms.length (r.total - r.less - less) ∧
        (∀ b ∈ contributors (perCollator r.noms.length (r.total - r.less - less)) r.noms less, NoRequest s n b.owner) ∧
        less ≤ ((contributors (perCollator r.noms.length (r.total - r.less - less)) r.noms less).map fun b => b.amount - P.minPer).sum := by
  have h := (hs.inv hP).g
  have hpos : 1 ≤ P.minPer := hP.min
  unfold Accepted
  show (∃ s', scheduleUnbondAll P s n less = some s') ↔ _
  unfold scheduleUnbondAll identifyPayers
  cases hr : s.noms n with
  | none =>
    constructor
    · rintro ⟨_, e⟩; cases e
    · rintro ⟨_, e, _⟩; cases e
  | some r =>
    have hnr := h.n.some n r hr
    dsimp only
    have strip : ∀ X : Nomr → Prop, (∃ r', some r = some r' ∧ X r') ↔ X r := fun X =>
      ⟨fun ⟨r', e, x⟩ => by injection e with e; subst e; exact x, fun x => ⟨r, rfl, x⟩⟩
    rw [strip]
    by_cases h1 : r.total - r.less < s.minTotal + less
    · rw [if_pos h1]
      constructor
      · rintro ⟨_, e⟩; cases e
      · rintro ⟨e, _⟩; omega
    rw [if_neg h1]
    generalize perCollator r.noms.length (r.total - r.less - less) = target
    by_cases h2 : target < P.minPer
    · rw [if_pos h2]
      constructor
      · rintro ⟨_, e⟩; cases e
      · rintro ⟨_, e, _⟩; omega
    rw [if_neg h2]
    obtain ⟨e1, e2⟩ := loop_eq P.minPer target r.noms less
    generalize hpl : payersLoop P.minPer target r.noms less = pl at e1 e2
    obtain ⟨payers, out⟩ := pl
    dsimp only at e1 e2 ⊢
    subst e1
    have hsome := given_some (Nat.le_of_not_lt h2) r.noms hnr.min less
    have hsub := contributors_sublist target r.noms less
    have hf := given_fst target r.noms less
    have hmem : ∀ v ∈ given target r.noms less, v.1 ∈ contributors target r.noms less := fun v hv =>
      hf ▸ List.mem_map_of_mem hv
    have hsums : ((contributors target r.noms less).map fun b => b.amount - P.minPer).sum =
        ((given target r.noms less).map Prod.snd).sum + ((given target r.noms less).map fun v => v.1.amount - (v.2 + P.minPer)).sum := by
      rw [← hf, List.map_map]
      generalize given target r.noms less = g at hsome
      induction g with
      | nil => rfl
      | cons v g ih =>
        have := hsome v (List.mem_cons_self ..)
        have := ih fun w hw => hsome w (List.mem_cons_of_mem _ hw)
        simp only [List.map_cons, List.sum_cons, Function.comp_apply] at this ⊢
        omega
    have hreq : (∀ b ∈ contributors target r.noms less, NoRequest s n b.owner) ↔
        ∀ v ∈ given target r.noms less, NoRequest s n v.1.owner := by
      rw [← hf]; simp
    have hfold := fold_iff hpos n (given target r.noms less) s r out hr hnr.sorted.uniq
      (by rw [hf]; exact List.Nodup.sublist (hsub.map _) hnr.sorted.uniq)
      (fun v hv => ⟨hsub.subset (hmem v hv), hsome v hv⟩) (by omega)
    rw [hsums, hreq]
    constructor
    · rintro ⟨s', e⟩
      cases hx : ((given target r.noms less).map (payer P.minPer)).foldl (unbondStep P n) (some (s, out)) with
      | none => rw [hx] at e; cases e
      | some x =>
        rw [hx] at e
        dsimp only at e
        by_cases hz : x.2 = 0
        · obtain ⟨g1, g2⟩ := hfold.1 ⟨x, hx, hz⟩
          exact ⟨by omega, by omega, g1, by omega⟩
        · rw [if_neg hz] at e; cases e
    · rintro ⟨_, _, g1, g2⟩
      obtain ⟨x, hx, hz⟩ := hfold.2 ⟨g1, by omega⟩
      rw [hx]
      dsimp only
      rw [if_pos hz]
      exact ⟨_, rfl⟩

/-! ### The hypotheses are met -/

private def unbondDemo (asks : List Op) : St := run smallPar (St.init 2 50 1 (fun _ => 1000))
  ([.join 1 10 10 true, .join 9 10 10 true, .nominate 2 1 60 10 10, .nominate 2 9 90 10 10] ++ asks)

example : Reach smallPar (unbondDemo [.scheduleDecrease 2 1 20]) := ⟨_, _, _, _, _, by decide, rfl⟩

-- 150 staked under a minimum total of 50: 100 can be asked for and 101 not; a pending request with either collator is in the way
example : (call smallPar (unbondDemo []) (.scheduleUnbondAll 2 100)).isSome = true ∧
    (call smallPar (unbondDemo []) (.scheduleUnbondAll 2 101)).isSome = false ∧
    (call smallPar (unbondDemo [.scheduleDecrease 2 9 20]) (.scheduleUnbondAll 2 30)).isSome = false ∧
    (call smallPar (unbondDemo [.scheduleDecrease 2 1 20]) (.scheduleUnbondAll 2 30)).isSome = false := by
  decide +kernel

example : contributors 50 [⟨1, 60⟩, ⟨5, 70⟩, ⟨9, 90⟩] 25 = [⟨1, 60⟩, ⟨5, 70⟩] := by decide +kernel

end Verif.Staking
