import Verif.Props.Membership

/-! # C110, C111: sessions and the list of authors -/

namespace Verif.Membership

open Verif.Staking (EPar St Full EOp CRec Core Inv Eligible BestChoice)

/-! ### C110 -/

/-- C110 (partial: the list may become empty, see `C110_authors_can_vanish`): the authors change only when a session starts, which only a
block does that ends an era or follows a forced one. Then the authors are exactly those queued when the session before started, with the
keys of that time, and those queued next are the collators selected before or after the block, in their order, who have session keys. -/
theorem C110_authors_were_queued_partial (E : EPar) (hE : E.Sane) (minV : Nat) (c : Chain) (hc : Reach E minV c) (x : Step) (c' : Chain)
    (h : c' = step E minV c x) :
    (c'.index = c.index ∧ c'.authors = c.authors ∧ c'.queued = c.queued ∧ c'.stk.selected = c.stk.selected) ∨
    (c'.index = c.index + 1 ∧ c'.authors = c.queued ∧
      (∃ pub now author pick visit, x = .block pub now author pick visit ∧ (Staking.shouldUpdate c.stk now = true ∨ c.stk.force = true)) ∧
      ∃ S, (S = c.stk.selected ∨ S = c'.stk.selected) ∧ S ≠ [] ∧
        c'.queued.map Prod.fst = S.filter (fun a => (c.keys a).isSome) ∧ ∀ p ∈ c'.queued, c.keys p.1 = some p.2) := by
  subst h
  rcases step_kind hE (hc.inv hE) x with q | ⟨pub, now, author, pick, visit, S, era, hx, hd, q⟩
  · exact Or.inl ⟨q.index, q.auth, q.queued, q.sel⟩
  · right
    obtain ⟨h1, h2, h3, h4, h5⟩ := (hc.sinv hE).rotated q
    refine ⟨q.index, h1, ⟨pub, now, author, pick, visit, hx, hd⟩, S, ?_, h2, ?_, ?_⟩
    · rcases q.plan with ⟨e, _⟩ | ⟨e, _⟩
      · exact Or.inl e
      · exact Or.inr e
    · rw [h4]
      clear h2 h3 h4 q
      induction S with
      | nil => rfl
      | cons a S ih =>
        rw [withKeys_cons, List.filter_cons]
        cases hk : c.keys a with
        | none => exact ih
        | some k =>
          show a :: (withKeys c.keys S).map Prod.fst = a :: _
          rw [ih]
    · rintro ⟨a, k⟩ hp
      rw [h4] at hp
      exact (mem_withKeys.1 hp).2

/-- C110: nobody is listed twice, neither by account nor by key, among the authors or the queued. -/
theorem C110_authors_are_distinct (E : EPar) (hE : E.Sane) (minV : Nat) (c : Chain) (hc : Reach E minV c) :
    (c.authors.map Prod.fst).Nodup ∧ (c.authors.map Prod.snd).Nodup ∧ (c.queued.map Prod.fst).Nodup ∧ (c.queued.map Prod.snd).Nodup :=
  let h := hc.sinv hE
  ⟨h.aa, h.ak, h.qa, h.qk⟩

/-- C110: session keys belong to one account at a time. -/
theorem C110_session_keys_have_one_owner (E : EPar) (hE : E.Sane) (minV : Nat) (c : Chain) (hc : Reach E minV c) (a b k : Nat)
    (ha : c.keys a = some k) (hb : c.keys b = some k) : a = b := by
  have h := (hc.sinv hE).bij
  have h1 := (h a k).1 ha
  rw [(h b k).1 hb] at h1
  injection h1 with h1
  exact h1.symm

/-- C110: collators are always selected, so the next list of authors can be empty only if no selected collator has session keys. -/
theorem C110_queue_is_empty_only_without_keys_partial (E : EPar) (hE : E.Sane) (minV : Nat) (c : Chain) (hc : Reach E minV c) (x : Step)
    (hn : (step E minV c x).index ≠ c.index) (hk : ∀ a, a ∈ c.stk.selected ∨ a ∈ (step E minV c x).stk.selected → c.keys a ≠ none) :
    (step E minV c x).queued ≠ [] := by
  rcases C110_authors_were_queued_partial E hE minV c hc x _ rfl with ⟨q, _⟩ | ⟨_, _, _, S, h1, h2, h3, _⟩
  · exact absurd q hn
  · intro e
    rw [e] at h3
    obtain ⟨a, ha⟩ := List.exists_mem_of_ne_nil S h2
    have hm : a ∈ S.filter (fun a => (c.keys a).isSome) := by
      refine List.mem_filter.2 ⟨ha, ?_⟩
      have : c.keys a ≠ none := by
        rcases h1 with r | r
        · exact hk a (Or.inl (r ▸ ha))
        · exact hk a (Or.inr (r ▸ ha))
      exact Option.isSome_iff_ne_none.2 this
    rw [← h3] at hm
    cases hm

/-- Both selected collators remove their session keys; two sessions later nobody is an author. -/
def vanish : List Step := [.purgeKeys 1, .purgeKeys 2, blk 5 [], blk 10 []]

/-- C110 does not hold as stated: users can empty the list of authors. -/
theorem C110_authors_can_vanish : ∃ (E : EPar) (minV : Nat) (c : Chain), E.Sane ∧ Reach E minV c ∧ c.vm.validators = [1, 2, 3] ∧
    c.authors = [] :=
  ⟨Staking.smallE, 2, run Staking.smallE 2 chain0 vanish, Staking.smallE_sane, ⟨_, _, _, vanish, chain0_start, rfl⟩, by decide +kernel,
    by decide +kernel⟩

/-- New keys reach the list of authors two sessions after they were set, and a rotation changes the list. -/
example : (run Staking.smallE 2 chain0 [.setKeys 1 21]).authors = [(1, 11), (2, 12), (3, 13)] ∧
    (run Staking.smallE 2 chain0 [.setKeys 1 21, blk 5 []]).authors = [(1, 11), (2, 12), (3, 13)] ∧
    (run Staking.smallE 2 chain0 [.setKeys 1 21, blk 5 [], .setKeys 2 22, blk 10 []]).authors = [(1, 21), (2, 12)] ∧
    (run Staking.smallE 2 chain0 [.setKeys 1 12]).keys 1 = some 11 := by decide +kernel

/-! ### C111 -/

/-- In every state of the history some candidate can be chosen. -/
def AlwaysEligible (E : EPar) (minV : Nat) (c : Chain) (steps : List Step) : Prop :=
  ∀ n, ∃ a x, Eligible (run E minV c (steps.take n)).stk.led a x

theorem AlwaysEligible.front {E : EPar} {minV : Nat} {c : Chain} {xs : List Step} {x : Step} (h : AlwaysEligible E minV c (xs ++ [x])) :
    AlwaysEligible E minV c xs ∧ ∃ a y, Eligible (run E minV c xs).stk.led a y := by
  constructor
  · intro n
    by_cases hn : n ≤ xs.length
    · have := h n
      rw [List.take_append_of_le_length hn] at this
      exact this
    · have := h xs.length
      rw [List.take_append_of_le_length (Nat.le_refl _), List.take_length] at this
      rw [List.take_of_length_le (by omega)]
      exact this
  · have := h xs.length
    rw [List.take_append_of_le_length (Nat.le_refl _), List.take_length] at this
    exact this

theorem bonded_of {E : EPar} (hE : E.Sane) {minV : Nat} {vs : List (Nat × Nat)} {F : Full} {sk : List (Nat × Nat)}
    (h : Start E minV vs F sk) (steps : List Step) (hel : AlwaysEligible E minV (genesis vs F sk) steps) :
    Bonded (run E minV (genesis vs F sk) steps) := by
  induction steps using List.reverseRecOn with
  | nil =>
    have cand : ∀ a ∈ sk.map Prod.fst, standing F.led a ≠ .out := by
      intro a ha e
      exact h.bonded a ha (standing_out.1 e)
    refine ⟨?_, cand, cand⟩
    intro a ha
    obtain ⟨x, hx⟩ := (h.selected hE).1.members a ha
    exact Or.inl (eligible_member hx)
  | append_singleton xs x ih =>
    obtain ⟨h1, h2⟩ := hel.front
    rw [run_snoc]
    exact (ih h1).step hE (run_minv hE (h.inv hE) xs) (run_sinv hE (h.inv hE) (h.sinv hE) xs) h.number h2 x

/-- C111: as long as some candidate can be chosen, every author (and everyone queued) is a staking candidate with its bond locked. -/
theorem C111_authors_are_bonded (E : EPar) (hE : E.Sane) (minV : Nat) (vs : List (Nat × Nat)) (F : Full) (sk : List (Nat × Nat))
    (hst : Start E minV vs F sk) (steps : List Step) (hel : AlwaysEligible E minV (genesis vs F sk) steps) (c : Chain)
    (h : c = run E minV (genesis vs F sk) steps) (a : Nat) (ha : a ∈ c.authors.map Prod.fst ∨ a ∈ c.queued.map Prod.fst) :
    ∃ r, c.stk.led.cands a = some r ∧ c.stk.led.clock a = r.info.bond := by
  have hb := bonded_of hE hst steps hel
  rw [← h] at hb
  have hne : standing c.stk.led a ≠ .out := by
    rcases ha with ha | ha
    · exact hb.auth a ha
    · exact hb.queued a ha
  have hc : Reach E minV c := ⟨vs, F, sk, steps, hst, h⟩
  cases e : c.stk.led.cands a with
  | none => exact absurd (standing_out.2 e) hne
  | some r => exact ⟨r, rfl, (C109_bonds_are_locked E hE minV c hc a).1 r e⟩

/-- C111: as long as some candidate can be chosen, an account that stays out of the validator list is not selected after one new session,
not queued after two, and not an author after three. -/
theorem C111_removed_validators_stop_authoring (E : EPar) (hE : E.Sane) (minV : Nat) (c : Chain) (hc : Reach E minV c) (a : Nat)
    (steps : List Step) (hel : AlwaysEligible E minV c steps)
    (hout : ∀ n, a ∉ (run E minV c (steps.take n)).vm.validators) (c' : Chain) (h : c' = run E minV c steps) :
    (c.index + 1 ≤ c'.index → a ∉ c'.stk.selected) ∧ (c.index + 2 ≤ c'.index → a ∉ c'.queued.map Prod.fst) ∧
    (c.index + 3 ≤ c'.index → a ∉ c'.authors.map Prod.fst) := by
  have hmin : 1 ≤ E.minSelected := by obtain ⟨_, _, _, _, h1, _⟩ := hc; exact h1.number
  have key : Out c' a (c'.index - c.index) ∧ c.index ≤ c'.index := by
    subst h
    induction steps using List.reverseRecOn with
    | nil =>
      refine ⟨⟨?_, ?_, ?_⟩, Nat.le_refl _⟩ <;>
      · intro q
        have : (run E minV c []).index = c.index := rfl
        omega
    | append_singleton xs x ih =>
      obtain ⟨h1, h2⟩ := hel.front
      obtain ⟨i1, i2⟩ := ih h1 (by
        intro n
        by_cases hn : n ≤ xs.length
        · have := hout n
          rw [List.take_append_of_le_length hn] at this
          exact this
        · have := hout xs.length
          rw [List.take_append_of_le_length (Nat.le_refl _), List.take_length] at this
          rw [List.take_of_length_le (by omega)]
          exact this)
      have hv : a ∉ (run E minV c xs).vm.validators := by
        have := hout xs.length
        rw [List.take_append_of_le_length (Nat.le_refl _), List.take_length] at this
        exact this
      have hm := run_minv hE (hc.inv hE) xs
      have hs := run_sinv hE (hc.inv hE) (hc.sinv hE) xs
      rw [run_snoc]
      have hmono : (run E minV c xs).index ≤ (step E minV (run E minV c xs) x).index := by
        rcases step_kind hE hm x with q | ⟨_, _, _, _, _, S, era, _, _, q⟩
        · exact Nat.le_of_eq q.index.symm
        · rw [q.index]; exact Nat.le_succ _
      have := i1.step hE hm hs hmin h2 hv x
      have e : (run E minV c xs).index - c.index + ((step E minV (run E minV c xs) x).index - (run E minV c xs).index) =
          (step E minV (run E minV c xs) x).index - c.index := by omega
      rw [e] at this
      exact ⟨this, by omega⟩
  obtain ⟨k1, k2⟩ := key
  exact ⟨fun q => k1.one (by omega), fun q => k1.two (by omega), fun q => k1.three (by omega)⟩

/-- The removed validator 2 of `leaving2` is still an author after two new sessions and not after three: the bound is reached. Its
Ethereum key is gone from the moment the removal is confirmed. -/
example : 2 ∉ (at2 3).vm.validators ∧ (at2 3).vm.rev 2 = none ∧ (at2 6).index = (at2 3).index + 2 ∧ (at2 6).authors = [(1, 11), (2, 12)] ∧
    (at2 7).index = (at2 3).index + 3 ∧ (at2 7).authors = [(1, 11), (3, 13)] := by decide +kernel

theorem eligible_of {s : St} {a : Nat}
    (h : (s.cands a).map (fun r => decide (r.info.status = .active ∧ s.minCollator ≤ r.info.bond + Staking.bondSum r.top.list)) = some true) :
    ∃ a x, Eligible s a x := by
  cases e : s.cands a with
  | none => rw [e] at h; cases h
  | some r =>
    rw [e] at h
    have h : some (decide (r.info.status = .active ∧ s.minCollator ≤ r.info.bond + Staking.bondSum r.top.list)) = some true := h
    injection h with h
    have h := of_decide_eq_true h
    exact ⟨a, _, r, e, h.1, rfl, h.2⟩

/-- The hypotheses of both theorems hold along that history. -/
example : AlwaysEligible Staking.smallE 2 chain0 leaving2 := by
  intro n
  have : ∀ m, m ≤ 7 → ∃ a x, Eligible (run Staking.smallE 2 chain0 (leaving2.take m)).stk.led a x := by
    intro m hm
    refine eligible_of (a := 1) ?_
    have : m = 0 ∨ m = 1 ∨ m = 2 ∨ m = 3 ∨ m = 4 ∨ m = 5 ∨ m = 6 ∨ m = 7 := by omega
    rcases this with rfl | rfl | rfl | rfl | rfl | rfl | rfl | rfl <;> decide +kernel
  by_cases hn : n ≤ 7
  · exact this n hn
  · have e : leaving2.take n = leaving2.take 7 := by
      rw [List.take_of_length_le (by show 7 ≤ n; omega), List.take_of_length_le (by decide)]
    rw [e]; exact this 7 (Nat.le_refl _)

/-- C111: removing a validator deletes its Ethereum key at once although it goes on being an author: such an author can no longer
confirm transactions for Ethereum. -/
theorem C111_author_without_ethereum_key : ∃ (E : EPar) (minV : Nat) (c : Chain) (a : Nat), E.Sane ∧ Reach E minV c ∧
    a ∈ c.authors.map Prod.fst ∧ c.vm.rev a = none ∧ a ∉ c.vm.validators :=
  ⟨Staking.smallE, 2, at2 3, 2, Staking.smallE_sane, at2_reach 3, by decide +kernel, by decide +kernel, by decide +kernel⟩

/-- Validator 2 is removed while the other candidates are offline, so that the selection stays; it removes its session keys, exits with
its bond, and sets keys again. -/
def returning : List Step :=
  [.removeValidator 2 true true, .bridgeResult 0 true true, .staking (.ledger (.goOffline 1)), .staking (.ledger (.goOffline 3)), .purgeKeys 2,
   blk 5 [(2, 1)], blk 10 [(2, 1)], blk 15 [(2, 1)], .setKeys 2 77, blk 20 [], blk 25 []]

/-- C111 needs an eligible candidate: without one, an account without any bond, removed five sessions ago, is an author. -/
theorem C111_without_eligible_candidates : ∃ (E : EPar) (minV : Nat) (c : Chain) (steps : List Step) (a : Nat), E.Sane ∧ Reach E minV c ∧
    (a ∉ c.vm.validators) ∧ (c.index + 5 ≤ (run E minV c steps).index) ∧ (run E minV c steps).stk.led.cands a = none ∧
    (run E minV c steps).stk.led.clock a = 0 ∧ a ∈ (run E minV c steps).authors.map Prod.fst :=
  ⟨Staking.smallE, 2, run Staking.smallE 2 chain0 (returning.take 2), returning.drop 2, 2, Staking.smallE_sane,
    ⟨_, _, _, returning.take 2, chain0_start, rfl⟩, by decide +kernel, by decide +kernel, by decide +kernel, by decide +kernel,
    by decide +kernel⟩

end Verif.Membership
