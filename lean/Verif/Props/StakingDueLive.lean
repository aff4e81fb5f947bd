import Verif.Props.StakingLive

/-!
# C154: executing every due request in one signed request

For states reached by any history of calls: exactly when `signed_execute_nomination_request`, which walks over all of a nominator's
nominations, is accepted.
-/

namespace Verif.Staking

/-! ### Specification -/

/-- The nominator has a request for this nomination. -/
def Asked (s : St) (n : Nat) (b : Bond) : Prop := ∃ q ∈ s.reqs b.owner, q.nominator = n

/-- The nominator has a request for this nomination whose era has come. -/
def AskedDue (s : St) (n : Nat) (b : Bond) : Prop := ∃ q ∈ s.reqs b.owner, q.nominator = n ∧ q.due ≤ s.era

/-- The nominator revokes this nomination, and the era of the revocation has come. -/
def RevokedDue (s : St) (n : Nat) (b : Bond) : Prop := ∃ q ∈ s.reqs b.owner, q.nominator = n ∧ q.due ≤ s.era ∧ q.revoke = true

/-- How much the due requests for these nominations take away. -/
def dueSum (s : St) (n : Nat) (l : List Bond) : Nat :=
  (l.map fun b => (((s.reqs b.owner).filter fun q => decide (q.nominator = n ∧ q.due ≤ s.era)).map Req.amount).sum).sum

/-! ### Proof -/

/-- The condition for the rest `l` of the loop, when `pre` is what is kept of the nominations already seen. -/
private def Cond (s : St) (n : Nat) (pre l : List Bond) (total : Nat) : Prop :=
  (∀ b ∈ l, Asked s n b) ∧
    ((∀ b ∈ l, ¬ AskedDue s n b) ∨ s.minTotal + dueSum s n l ≤ total ∨
      (pre = [] ∧ (∀ b ∈ l, RevokedDue s n b) ∧ (l.length = 1 ∨ ∀ b, l.getLast? = some b → s.minTotal ≤ b.amount)))

private theorem filter_due {l : List Req} (u : RUniq l) {q : Req} (hq : q ∈ l) (e : Nat) :
    (l.filter fun x => decide (x.nominator = q.nominator ∧ x.due ≤ e)) = if q.due ≤ e then [q] else [] := by
  induction l with
  | nil => cases hq
  | cons z l ih =>
    obtain ⟨h1, h2⟩ := List.nodup_cons.1 u
    rcases List.mem_cons.1 hq with rfl | hm
    · have hn : (l.filter fun x => decide (x.nominator = q.nominator ∧ x.due ≤ e)) = [] := by
        rw [List.filter_eq_nil_iff]
        intro x hx g
        exact h1 ((of_decide_eq_true g).1 ▸ List.mem_map_of_mem hx)
      by_cases hd : q.due ≤ e
      · rw [List.filter_cons_of_pos (by simpa using hd), hn, if_pos hd]
      · rw [List.filter_cons_of_neg (by simpa using hd), hn, if_neg hd]
    · have hz : z.nominator ≠ q.nominator := by
        intro g
        exact h1 (g.symm ▸ List.mem_map_of_mem hm)
      rw [List.filter_cons_of_neg (by simp [hz])]
      exact ih h2 hm

private theorem dueSum_cons (s : St) (n : Nat) {b : Bond} {l : List Bond} {q : Req} (u : RUniq (s.reqs b.owner)) (hq : q ∈ s.reqs b.owner)
    (hn : q.nominator = n) : dueSum s n (b :: l) = (if q.due ≤ s.era then q.amount else 0) + dueSum s n l := by
  subst hn
  unfold dueSum
  rw [List.map_cons, List.sum_cons, filter_due u hq]
  by_cases hd : q.due ≤ s.era
  · rw [if_pos hd, if_pos hd]; simp
  · rw [if_neg hd, if_neg hd]; simp

private theorem dueSum_zero {s : St} {n : Nat} {l : List Bond} (h : ∀ b ∈ l, ¬ AskedDue s n b) : dueSum s n l = 0 := by
  induction l with
  | nil => rfl
  | cons b l ih =>
    have hb : ((s.reqs b.owner).filter fun q => decide (q.nominator = n ∧ q.due ≤ s.era)) = [] := by
      rw [List.filter_eq_nil_iff]
      intro x hx g
      obtain ⟨g1, g2⟩ := of_decide_eq_true g
      exact h b (List.mem_cons_self ..) ⟨x, hx, g1, g2⟩
    have := ih fun x hx => h x (List.mem_cons_of_mem _ hx)
    unfold dueSum at this ⊢
    rw [List.map_cons, List.sum_cons, hb, this]
    rfl

/-- Nothing about the rest changes when another collator's requests are dropped. -/
private theorem rest_same {s s' : St} {n c : Nat} (he : s'.era = s.era) (hr : s'.reqs = upd s.reqs c (dropReq (s.reqs c) n)) {l : List Bond}
    (hl : ∀ x ∈ l, x.owner ≠ c) :
    ((∀ b ∈ l, Asked s' n b) ↔ ∀ b ∈ l, Asked s n b) ∧ ((∀ b ∈ l, ¬ AskedDue s' n b) ↔ ∀ b ∈ l, ¬ AskedDue s n b) ∧
    ((∀ b ∈ l, RevokedDue s' n b) ↔ ∀ b ∈ l, RevokedDue s n b) ∧ dueSum s' n l = dueSum s n l := by
  have hq : ∀ b ∈ l, s'.reqs b.owner = s.reqs b.owner := fun b hb => by rw [hr, upd_ne _ _ (hl b hb)]
  refine ⟨?_, ?_, ?_, ?_⟩
  · exact forall₂_congr fun b hb => by unfold Asked; rw [hq b hb]
  · exact forall₂_congr fun b hb => by unfold AskedDue; rw [hq b hb, he]
  · exact forall₂_congr fun b hb => by unfold RevokedDue; rw [hq b hb, he]
  · unfold dueSum
    rw [List.map_congr_left fun b hb => by rw [hq b hb, he]]

private theorem without_mid {pre l : List Bond} {b : Bond} (u : Uniq (pre ++ b :: l)) : without (pre ++ b :: l) b.owner = pre ++ l := by
  unfold Uniq at u
  rw [List.map_append, List.map_cons] at u
  obtain ⟨_, u2, u3⟩ := List.nodup_append.1 u
  obtain ⟨u4, _⟩ := List.nodup_cons.1 u2
  have h1 : without pre b.owner = pre := without_of_absent fun x hx e =>
    u3 _ (List.mem_map_of_mem hx) _ (List.mem_cons_self ..) e
  have h2 : without l b.owner = l := without_of_absent fun x hx e => u4 (e ▸ List.mem_map_of_mem hx)
  have h3 : without (b :: l) b.owner = without l b.owner := by unfold without; rw [List.filter_cons_of_neg (by simp)]
  rw [without_append, h1, h3, h2]

private theorem adjust_absent {l : List Bond} {c : Nat} {f : Nat → Nat} (h : ∀ x ∈ l, x.owner ≠ c) : adjust l c f = l := by
  unfold adjust
  conv => rhs; rw [← List.map_id l]
  exact List.map_congr_left fun x hx => by rw [if_pos (h x hx)]; rfl

private theorem adjust_mid {pre l : List Bond} {b : Bond} (u : Uniq (pre ++ b :: l)) (f : Nat → Nat) :
    adjust (pre ++ b :: l) b.owner f = (pre ++ [⟨b.owner, f b.amount⟩]) ++ l := by
  unfold Uniq at u
  rw [List.map_append, List.map_cons] at u
  obtain ⟨_, u2, u3⟩ := List.nodup_append.1 u
  obtain ⟨u4, _⟩ := List.nodup_cons.1 u2
  have h1 : adjust pre b.owner f = pre := adjust_absent fun x hx e =>
    u3 _ (List.mem_map_of_mem hx) _ (List.mem_cons_self ..) e
  have h2 : adjust l b.owner f = l := adjust_absent fun x hx e => u4 (e ▸ List.mem_map_of_mem hx)
  have h3 : adjust (b :: l) b.owner f = ⟨b.owner, f b.amount⟩ :: adjust l b.owner f := by
    unfold adjust; rw [List.map_cons, if_neg (by simp)]
  rw [adjust_append, h1, h3, h2, List.append_assoc]; rfl

/-- The nominator's record after one request is executed. -/
private theorem record_after {P : Par} (hP : P.Ok) {s s' : St} (h : GInv P s) {n : Nat} {b : Bond} {r : Nomr} (hr : s.noms n = some r)
    (hb : b ∈ r.noms) {q : Req} (hq : q ∈ s.reqs b.owner) (hn : q.nominator = n) (ho : executeRequest P s n b.owner = some s') :
    (q.revoke = true → q.amount = b.amount ∧
      ∃ o, s'.noms n = o ∧ (r.noms.length = 1 → o = none) ∧
        (r.noms.length ≠ 1 → ∃ r', o = some r' ∧ r'.noms = without r.noms b.owner ∧ r'.total = r.total - q.amount)) ∧
    (q.revoke = false → ∃ r', s'.noms n = some r' ∧ r'.noms = adjust r.noms b.owner (· - q.amount) ∧ r'.total = r.total - q.amount) := by
  have hf : findReq (s.reqs b.owner) n = some q := by rw [← hn]; exact findReq_mem (h.n.uniq b.owner) hq
  obtain ⟨r0, b', g1, g2, g3, g4, g5⟩ := h.n.req b.owner q hq
  rw [hn, hr] at g1
  injection g1 with g1
  subst g1
  have hnr := h.n.some n r hr
  have eb : b' = b := hnr.sorted.uniq.eq g2 hb g3
  subst eb
  unfold executeRequest at ho
  rw [hr] at ho
  dsimp only at ho
  rw [hf] at ho
  dsimp only at ho
  by_cases hd : s.era < q.due
  · rw [if_pos hd] at ho; cases ho
  rw [if_neg hd] at ho
  constructor
  · intro hrev
    have ea := g4 hrev
    refine ⟨ea, ?_⟩
    rw [if_pos hrev] at ho
    unfold executeRevoke at ho
    by_cases hm : r.noms.length ≠ 1 ∧ r.total - s.minTotal < q.amount
    · rw [if_pos hm] at ho; cases ho
    rw [if_neg hm] at ho
    have hrm : ({ r with less := r.less - q.amount } : Nomr).rm b'.owner =
        some ⟨without r.noms b'.owner, r.total - b'.amount, r.less - q.amount⟩ := by
      unfold Nomr.rm
      dsimp only
      rw [findOwner_mem hnr.sorted.uniq hb]
      dsimp only
      rw [rebuildSet_eq (hnr.sorted.without _)]
      have h1 := (without_sublist r.noms b'.owner).length_le
      have h2 := hnr.len
      have h3 := hP.max
      omega
    dsimp only at ho
    rw [hrm] at ho
    simp only [Option.getD_some] at ho
    cases hl : leavesCandidate P (s.lockNom n (r.total - b'.amount)) b'.owner n q.amount with
    | none => rw [hl] at ho; cases ho
    | some s2 =>
    rw [hl] at ho
    injection ho with ho
    refine ⟨_, rfl, ?_, ?_⟩
    · intro h1
      rw [← ho]
      show upd s2.noms n _ n = _
      rw [upd_same, if_pos h1]
    · intro h1
      refine ⟨⟨without r.noms b'.owner, r.total - b'.amount, r.less - q.amount⟩, ?_, rfl, by rw [ea]⟩
      rw [← ho]
      show upd s2.noms n _ n = _
      rw [upd_same, if_neg h1]
  · intro hrev
    rw [hrev, if_neg (by simp)] at ho
    unfold executeDecrease at ho
    rw [findOwner_mem hnr.sorted.uniq hb] at ho
    dsimp only at ho
    by_cases k1 : b'.amount ≤ q.amount
    · rw [if_pos k1] at ho; cases ho
    rw [if_neg k1] at ho
    cases hk : s.cand? b'.owner with
    | none => rw [hk] at ho; cases ho
    | some k =>
    rw [hk] at ho
    dsimp only at ho
    by_cases k2 : r.total - q.amount < P.minPer
    · rw [if_pos k2] at ho; cases ho
    rw [if_neg k2] at ho
    by_cases k3 : r.total - q.amount < s.minTotal
    · rw [if_pos k3] at ho; cases ho
    rw [if_neg k3] at ho
    cases hdn : decreaseNomination P.cfg b'.owner k n b'.amount q.amount with
    | error e => rw [hdn] at ho; cases ho
    | ok x =>
    rw [hdn] at ho
    obtain ⟨k', t⟩ := x
    dsimp only at ho
    injection ho with ho
    refine ⟨⟨adjust r.noms b'.owner (· - q.amount), r.total - q.amount, r.less - q.amount⟩, ?_, rfl, rfl⟩
    rw [← ho]
    exact upd_same _ _ _

private theorem nodup_mid {pre l : List Bond} {b : Bond} (u : Uniq (pre ++ b :: l)) : ∀ x ∈ l, x.owner ≠ b.owner := by
  unfold Uniq at u
  rw [List.map_append, List.map_cons] at u
  obtain ⟨_, u2, _⟩ := List.nodup_append.1 u
  obtain ⟨u4, _⟩ := List.nodup_cons.1 u2
  exact fun x hx e => u4 (e ▸ List.mem_map_of_mem hx)

private theorem last_cons {b : Bond} {l : List Bond} (hl : l ≠ []) : (b :: l).getLast? = l.getLast? := by
  cases l with
  | nil => exact absurd rfl hl
  | cons x l => rw [List.getLast?_cons_cons]

/-- When one request is executed. -/
private theorem one_iff {P : Par} (hP : P.Ok) {s : St} (h : GInv P s) {n : Nat} {b : Bond} {r : Nomr} (hr : s.noms n = some r)
    (hb : b ∈ r.noms) {q : Req} (hq : q ∈ s.reqs b.owner) (hn : q.nominator = n) (hd : q.due ≤ s.era) :
    (∃ s', executeRequest P s n b.owner = some s') ↔ (q.revoke = true ∧ r.noms.length = 1) ∨ s.minTotal + q.amount ≤ r.total := by
  refine ⟨?_, executeRequest_succeeds hP h hq hn hd hr⟩
  rintro ⟨s', ho⟩
  have hf : findReq (s.reqs b.owner) n = some q := by rw [← hn]; exact findReq_mem (h.n.uniq b.owner) hq
  obtain ⟨r0, b', g1, g2, g3, g4, g5⟩ := h.n.req b.owner q hq
  rw [hn, hr] at g1
  injection g1 with g1
  subst g1
  have hnr := h.n.some n r hr
  have eb : b' = b := hnr.sorted.uniq.eq g2 hb g3
  subst eb
  have htot : b'.amount ≤ r.total := by
    rw [hnr.total, sum_without hnr.sorted.uniq hb]; omega
  have hpos := hP.pos
  have hmin := hnr.min b' hb
  unfold executeRequest at ho
  rw [hr] at ho
  dsimp only at ho
  rw [hf] at ho
  dsimp only at ho
  rw [if_neg (by omega)] at ho
  cases hrev : q.revoke with
  | true =>
    have ea := g4 hrev
    rw [hrev, if_pos rfl] at ho
    unfold executeRevoke at ho
    by_cases hm : r.noms.length ≠ 1 ∧ r.total - s.minTotal < q.amount
    · rw [if_pos hm] at ho; cases ho
    · by_cases h1 : r.noms.length = 1
      · exact Or.inl ⟨rfl, h1⟩
      · right
        have : ¬ (r.total - s.minTotal < q.amount) := fun e => hm ⟨h1, e⟩
        omega
  | false =>
    right
    have hle := g5 hrev
    rw [hrev, if_neg (by simp)] at ho
    unfold executeDecrease at ho
    rw [findOwner_mem hnr.sorted.uniq hb] at ho
    dsimp only at ho
    by_cases k1 : b'.amount ≤ q.amount
    · rw [if_pos k1] at ho; cases ho
    rw [if_neg k1] at ho
    cases hk : s.cand? b'.owner with
    | none => rw [hk] at ho; cases ho
    | some k =>
    rw [hk] at ho
    dsimp only at ho
    by_cases k2 : r.total - q.amount < P.minPer
    · rw [if_pos k2] at ho; cases ho
    rw [if_neg k2] at ho
    by_cases k3 : r.total - q.amount < s.minTotal
    · rw [if_pos k3] at ho; cases ho
    omega

private theorem due_iff {P : Par} (hP : P.Ok) (n : Nat) (l : List Bond) : ∀ (s : St) (pre : List Bond) (r : Nomr), GInv P s →
    s.noms n = some r → r.noms = pre ++ l →
    ((∃ s', l.foldl (executeDueStep P n) (some s) = some s') ↔ Cond s n pre l r.total) := by
  induction l with
  | nil =>
    intro s pre r h hr hl
    exact ⟨fun _ => ⟨fun b hb => absurd hb List.not_mem_nil, Or.inl fun b hb => absurd hb List.not_mem_nil⟩, fun _ => ⟨s, rfl⟩⟩
  | cons b l ih =>
    intro s pre r h hr hl
    have hnr := h.n.some n r hr
    have hu : Uniq (pre ++ b :: l) := hl ▸ hnr.sorted.uniq
    have hb : b ∈ r.noms := by rw [hl]; simp
    have hne := nodup_mid hu
    rw [List.foldl_cons]
    cases hf : findReq (s.reqs b.owner) n with
    | none =>
      have e : executeDueStep P n (some s) b = none := by unfold executeDueStep; dsimp only; rw [hf]
      rw [e, foldl_none (fun _ => rfl)]
      constructor
      · rintro ⟨s', e⟩; cases e
      · rintro ⟨g, _⟩
        obtain ⟨q, h1, h2⟩ := g b (List.mem_cons_self ..)
        exact absurd h2 (findReq_none.1 hf q h1)
    | some q =>
    obtain ⟨hq, hn⟩ := findReq_some hf
    have only : ∀ x ∈ s.reqs b.owner, x.nominator = n → x = q := fun x hx e => RUniq.eq (h.n.uniq _) hx hq (e.trans hn.symm)
    have hsum := dueSum_cons s n (l := l) (h.n.uniq b.owner) hq hn
    have hasked : Asked s n b := ⟨q, hq, hn⟩
    by_cases hd : q.due ≤ s.era
    · rw [if_pos hd] at hsum
      have hdb : AskedDue s n b := ⟨q, hq, hn, hd⟩
      have hnone : ¬ ∀ x ∈ b :: l, ¬ AskedDue s n x := fun g => g b (List.mem_cons_self ..) hdb
      have estep : executeDueStep P n (some s) b = executeRequest P s n b.owner := by
        unfold executeDueStep; dsimp only; rw [hf]; dsimp only; rw [if_pos hd]
      rw [estep]
      have hone := one_iff hP h hr hb hq hn hd
      cases hx : executeRequest P s n b.owner with
      | none =>
        rw [foldl_none (fun _ => rfl)]
        constructor
        · rintro ⟨s', e⟩; cases e
        · rintro ⟨_, g | g | ⟨g1, g2, g3⟩⟩
          · exact absurd g hnone
          · obtain ⟨s', e⟩ := hone.2 (Or.inr (by omega))
            rw [hx] at e; cases e
          · exfalso
            obtain ⟨q', k1, k2, _, k3⟩ := g2 b (List.mem_cons_self ..)
            have := only q' k1 k2; subst this
            subst g1
            rw [List.nil_append] at hl hu
            have hrest : ∃ s', executeRequest P s n b.owner = some s' := by
              refine hone.2 ?_
              by_cases hl0 : l = []
              · subst hl0; exact Or.inl ⟨k3, by rw [hl]; rfl⟩
              · right
                have g3' : ∀ x, (b :: l).getLast? = some x → s.minTotal ≤ x.amount := by
                  rcases g3 with g3 | g3
                  · exfalso; apply hl0; apply List.length_eq_zero_iff.1; simpa using g3
                  · exact g3
                rw [last_cons hl0] at g3'
                have hlast := g3' _ (List.getLast?_eq_some_getLast hl0)
                have hmem := List.getLast_mem hl0
                have ha : (l.getLast hl0).amount ≤ sumAmt l := by
                  rw [sum_without (List.nodup_cons.1 hu).2 hmem]; omega
                have hqa : q'.amount = b.amount := by
                  obtain ⟨r0, b', m1, m2, m3, m4, _⟩ := h.n.req b.owner q' hq
                  rw [hn, hr] at m1
                  injection m1 with m1
                  subst m1
                  rw [m4 k3, hnr.sorted.uniq.eq m2 hb m3]
                rw [hnr.total, hl, sumAmt_cons, hqa]
                omega
            obtain ⟨s', e⟩ := hrest
            rw [hx] at e; cases e
      | some s1 =>
        have hok := hone.1 ⟨s1, hx⟩
        obtain ⟨q', hs⟩ := executeRequest_ok hP h hx
        have eq := only q' hs.mem hs.by_
        subst eq
        have hrec := record_after hP h hr hb hq hn hx
        obtain ⟨c1, c2, c3, c4⟩ := rest_same (l := l) hs.same.era hs.reqs hne
        cases hrev : q'.revoke with
        | true =>
          obtain ⟨ea, o, ho, hlast, hmore⟩ := hrec.1 hrev
          have hrb : RevokedDue s n b := ⟨q', hq, hn, hd, hrev⟩
          by_cases h1 : r.noms.length = 1
          · have hz : pre = [] ∧ l = [] := by
              rw [hl, List.length_append, List.length_cons] at h1
              exact ⟨List.length_eq_zero_iff.1 (by omega), List.length_eq_zero_iff.1 (by omega)⟩
            obtain ⟨rfl, rfl⟩ := hz
            refine ⟨fun _ => ⟨?_, Or.inr (Or.inr ⟨rfl, ?_, Or.inl rfl⟩)⟩, fun _ => ⟨s1, rfl⟩⟩
            · intro x hx'; rw [List.mem_singleton.1 hx']; exact hasked
            · intro x hx'; rw [List.mem_singleton.1 hx']; exact hrb
          · obtain ⟨r', e1, e2, e3⟩ := hmore h1
            rw [hl, without_mid hu] at e2
            rw [ih s1 pre r' hs.inv (ho.trans e1) e2]
            have hpay : s.minTotal + q'.amount ≤ r.total := by
              rcases hok with ⟨_, g⟩ | g
              · exact absurd g h1
              · exact g
            unfold Cond
            rw [c1, c2, c3, c4, hs.same.minTotal, e3, hsum]
            constructor
            · rintro ⟨g1, g⟩
              refine ⟨fun x hx' => ?_, ?_⟩
              · rcases List.mem_cons.1 hx' with rfl | hx'
                · exact hasked
                · exact g1 x hx'
              · rcases g with g | g | ⟨g2, g3, g4⟩
                · have := dueSum_zero g
                  exact Or.inr (Or.inl (by omega))
                · exact Or.inr (Or.inl (by omega))
                · refine Or.inr (Or.inr ⟨g2, fun x hx' => ?_, Or.inr fun x hx' => ?_⟩)
                  · rcases List.mem_cons.1 hx' with rfl | hx'
                    · exact hrb
                    · exact g3 x hx'
                  · have hl0 : l ≠ [] := by
                      rintro rfl
                      apply h1; rw [hl, g2]; rfl
                    rw [last_cons hl0] at hx'
                    rcases g4 with g4 | g4
                    · obtain ⟨y, rfl⟩ := List.length_eq_one_iff.1 g4
                      have : y = x := by simpa using hx'
                      subst this
                      have := hnr.total
                      rw [hl, g2, List.nil_append, sumAmt_cons, sumAmt_cons, sumAmt_nil] at this
                      omega
                    · exact g4 x hx'
            · rintro ⟨g1, g⟩
              refine ⟨fun x hx' => g1 x (List.mem_cons_of_mem _ hx'), ?_⟩
              rcases g with g | g | ⟨g2, g3, g4⟩
              · exact absurd g hnone
              · exact Or.inr (Or.inl (by omega))
              · refine Or.inr (Or.inr ⟨g2, fun x hx' => g3 x (List.mem_cons_of_mem _ hx'), Or.inr fun x hx' => ?_⟩)
                have hl0 : l ≠ [] := by rintro rfl; simp at hx'
                rcases g4 with g4 | g4
                · exfalso; apply hl0; apply List.length_eq_zero_iff.1; simpa using g4
                · rw [last_cons hl0] at g4; exact g4 x hx'
        | false =>
          obtain ⟨r', e1, e2, e3⟩ := hrec.2 hrev
          rw [hl, adjust_mid hu] at e2
          rw [ih s1 _ r' hs.inv e1 e2]
          have hpay : s.minTotal + q'.amount ≤ r.total := by
            rcases hok with ⟨g, _⟩ | g
            · rw [hrev] at g; cases g
            · exact g
          unfold Cond
          rw [c1, c2, c3, c4, hs.same.minTotal, e3, hsum]
          constructor
          · rintro ⟨g1, g⟩
            refine ⟨fun x hx' => ?_, ?_⟩
            · rcases List.mem_cons.1 hx' with rfl | hx'
              · exact hasked
              · exact g1 x hx'
            · rcases g with g | g | ⟨g2, _⟩
              · have := dueSum_zero g
                exact Or.inr (Or.inl (by omega))
              · exact Or.inr (Or.inl (by omega))
              · simp at g2
          · rintro ⟨g1, g⟩
            refine ⟨fun x hx' => g1 x (List.mem_cons_of_mem _ hx'), ?_⟩
            rcases g with g | g | ⟨_, g3, _⟩
            · exact absurd g hnone
            · exact Or.inr (Or.inl (by omega))
            · obtain ⟨x, k1, k2, _, k3⟩ := g3 b (List.mem_cons_self ..)
              rw [only x k1 k2, hrev] at k3; cases k3
    · rw [if_neg hd, Nat.zero_add] at hsum
      have hndb : ¬ AskedDue s n b := by
        rintro ⟨x, k1, k2, k3⟩
        rw [only x k1 k2] at k3; exact hd k3
      have estep : executeDueStep P n (some s) b = some s := by
        unfold executeDueStep; dsimp only; rw [hf]; dsimp only; rw [if_neg hd]
      rw [estep, ih s (pre ++ [b]) r h hr (by rw [hl, List.append_assoc]; rfl)]
      unfold Cond
      rw [hsum]
      constructor
      · rintro ⟨g1, g⟩
        refine ⟨fun x hx' => ?_, ?_⟩
        · rcases List.mem_cons.1 hx' with rfl | hx'
          · exact hasked
          · exact g1 x hx'
        · rcases g with g | g | ⟨g2, _⟩
          · refine Or.inl fun x hx' => ?_
            rcases List.mem_cons.1 hx' with rfl | hx'
            · exact hndb
            · exact g x hx'
          · exact Or.inr (Or.inl g)
          · simp at g2
      · rintro ⟨g1, g⟩
        refine ⟨fun x hx' => g1 x (List.mem_cons_of_mem _ hx'), ?_⟩
        rcases g with g | g | ⟨_, g3, _⟩
        · exact Or.inl fun x hx' => g x (List.mem_cons_of_mem _ hx')
        · exact Or.inr (Or.inl g)
        · obtain ⟨x, k1, k2, k3, _⟩ := g3 b (List.mem_cons_self ..)
          exact absurd ⟨x, k1, k2, k3⟩ hndb

/-! ### The property -/

/-- C154: executing all due requests at once succeeds exactly for a nominator that has a request for every one of its nominations, and
for which either nothing is due, or what is left after all due requests is at least the minimum total, or every nomination is revoked
and due, and the nomination that comes last is the only one or is at least the minimum total by itself. -/
theorem C154_execute_all_accepted_iff (P : Par) (hP : P.Sane) (s : St) (hs : Reach P s) (n : Nat) :
    Accepted P s (.executeDue n) ↔
      ∃ r, s.noms n = some r ∧ (∀ b ∈ r.noms, Asked s n b) ∧
        ((∀ b ∈ r.noms, ¬ AskedDue s n b) ∨ s.minTotal + dueSum s n r.noms ≤ r.total ∨
          ((∀ b ∈ r.noms, RevokedDue s n b) ∧ (r.noms.length = 1 ∨ ∀ b, r.noms.getLast? = some b → s.minTotal ≤ b.amount))) := by
  have h := (hs.inv hP).g
  unfold Accepted
  show (∃ s', executeDue P s n = some s') ↔ _
  unfold executeDue
  cases hr : s.noms n with
  | none =>
    constructor
    · rintro ⟨_, e⟩; cases e
    · rintro ⟨_, e, _⟩; cases e
  | some r =>
    dsimp only
    rw [due_iff hP.ok n r.noms s [] r h hr rfl]
    constructor
    · rintro ⟨g1, g⟩
      exact ⟨r, rfl, g1, g.imp id (Or.imp id fun g => g.2)⟩
    · rintro ⟨r', e, g1, g⟩
      injection e with e
      subst e
      exact ⟨g1, g.imp id (Or.imp id fun g => ⟨rfl, g⟩)⟩

/-- The outcome for a nominator that revokes everything depends on which collator comes last: 2 bonds 60 and 40 under a minimum total of
50; with the 40 last the call is refused (for every era to come), with the 60 last it is accepted. -/
theorem C154_departure_depends_on_order :
    let dep := fun (a b : Nat) => run smallPar (St.init 2 50 1 (fun _ => 1000))
      [.join 1 10 10 true, .join 9 10 10 true, .nominate 2 1 a 10 10, .nominate 2 9 b 10 10, .revokeAll 2, .newEra, .newEra]
    (call smallPar (dep 60 40) (.executeDue 2)).isSome = false ∧ (call smallPar (dep 40 60) (.executeDue 2)).isSome = true ∧
    (call smallPar (dep 60 40) (.executeRevokeAll 2 2)).isSome = true := by
  decide +kernel

/-! ### The hypotheses are met -/

private def dueDemo (asks : List Op) : St := run smallPar (St.init 2 50 1 (fun _ => 1000))
  ([.join 1 10 10 true, .join 9 10 10 true, .nominate 2 1 60 10 10, .nominate 2 9 40 10 10] ++ asks)

example : Reach smallPar (dueDemo [.scheduleDecrease 2 1 20]) := ⟨_, _, _, _, _, by decide, rfl⟩

-- a nomination without a request: refused; both asked and due: accepted; not yet due: accepted without effect; one due: accepted
example : (call smallPar (dueDemo [.scheduleDecrease 2 1 20, .newEra, .newEra]) (.executeDue 2)).isSome = false ∧
    (call smallPar (dueDemo [.scheduleDecrease 2 1 20, .scheduleDecrease 2 9 20, .newEra, .newEra]) (.executeDue 2)).isSome = true ∧
    ((call smallPar (dueDemo [.scheduleDecrease 2 1 20, .scheduleDecrease 2 9 20]) (.executeDue 2)).map fun s => s.total) =
      some (dueDemo []).total ∧
    ((call smallPar (dueDemo [.scheduleDecrease 2 1 20, .newEra, .newEra, .scheduleDecrease 2 9 20]) (.executeDue 2)).map
      fun s => s.total + 20) = some (dueDemo []).total := by
  decide +kernel

end Verif.Staking
