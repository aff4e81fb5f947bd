import Verif.Lemmas.AuthorsKeys

/-!
# C89: the authors manager

Histories start from a genesis with distinct accounts and distinct Ethereum keys, at least `minA` (`MinimumAuthorsCount`) and at most 256
authors, and are arbitrary sequences of administrator calls, key rotations, bridge results and sessions.
-/

namespace Verif.Authors

/-- Three authors at genesis, with a minimum of two. -/
def gen3 : List (Nat × Nat) := [(1, 101), (2, 102), (3, 103)]

theorem gen3_good : GoodGenesis 2 gen3 := ⟨by decide, by decide, by decide, by decide⟩

/-- A registration and a removal which both succeed, with a session between. -/
def busy : List Step :=
  [.add 4 104 0 true true true, .bridgeResult 0 true true true, .session [1, 2, 3, 4] [] [(4, 1)],
   .remove 2 true true, .otherPublish, .session [1, 3, 4] [2] [(2, 2)], .bridgeResult 1 true true true]

example : (run 2 (genesis gen3) busy).authors = [1, 3, 4] ∧ (run 2 (genesis gen3) busy).keys = [(104, 4), (101, 1), (103, 3)] := by
  decide +kernel

/-- **C89, bounds.** At every time the authors are distinct, at least the minimum and at most 256. -/
theorem C89_bounds (minA : Nat) (vs : List (Nat × Nat)) (h : GoodGenesis minA vs) (xs : List Step) :
    (run minA (genesis vs) xs).authors.Nodup ∧ minA ≤ (run minA (genesis vs) xs).authors.length ∧
      (run minA (genesis vs) xs).authors.length ≤ 256 := by
  obtain ⟨p, hi⟩ := run_inv h xs
  exact ⟨hi.nodup, hi.lo, hi.hi⟩

/-- C89: the session pallet is handed exactly the author list, at every time there is one. -/
theorem C89_next_session (minA : Nat) (vs : List (Nat × Nat)) (h : GoodGenesis minA vs) (hm : 0 < minA) (xs : List Step) :
    nextAuthors (run minA (genesis vs) xs) = some (run minA (genesis vs) xs).authors := by
  have := (C89_bounds minA vs h xs).2.1
  unfold nextAuthors
  rw [if_neg]
  intro hc
  rw [hc] at this
  simp at this
  omega

/-- The pending change of a published, unanswered request. -/
theorem pending_of_published {minA : Nat} {p : Option Entry} {s : State} (hi : Inv minA p s) {t a x : Nat} {k : Kind}
    (h1 : .published t k a x ∈ s.log) (h2 : ∀ ok, .answered t ok ∉ s.log) :
    ∃ e, p = some e ∧ e.tx = t ∧ e.kind = k ∧ e.account = a ∧ s.txMap t = some (a, e.ingress) ∧
      getAction s a e.ingress = some e := by
  obtain ⟨_, ⟨ok, h3⟩ | ⟨e, h3, h4, h5, h6⟩⟩ := hi.logP _ _ _ _ h1
  · exact absurd h3 (h2 ok)
  · have ht : s.txMap t = some (a, e.ingress) := by
      rw [hi.tx, h3]; simp [h4, h6]
    refine ⟨e, h3, h4, h5, h6, ht, ?_⟩
    obtain ⟨e', g1, _, _, _, g5⟩ := hi.pending ht
    rw [h3] at g1
    simp only [Option.some.injEq] at g1
    subst g1; exact g5

/-- **C89, joining.** An account becomes an author only when the bridge reports success for a registration of exactly this account,
published before and not answered yet. -/
theorem C89_joins_only_when_confirmed (minA : Nat) (vs : List (Nat × Nat)) (h : GoodGenesis minA vs) (xs : List Step) (x : Step)
    (a : Nat) (h0 : a ∉ (run minA (genesis vs) xs).authors) (h1 : a ∈ (run minA (genesis vs) (xs ++ [x])).authors) :
    ∃ t k, x = .bridgeResult t true true true ∧ .published t .registration a k ∈ (run minA (genesis vs) xs).log ∧
      ∀ ok, .answered t ok ∉ (run minA (genesis vs) xs).log := by
  obtain ⟨p, hi⟩ := run_inv h xs
  rw [run_snoc] at h1
  have hv := step_view hi x
  generalize hs : run minA (genesis vs) xs = s at *
  generalize hs' : step minA s x = s' at *
  cases hv with
  | same => exact absurd h1 h0
  | other hx => exact absurd h1 h0
  | requested a k d hx => exact absurd h1 h0
  | resigned a k hx => exact absurd h1 h0
  | rotated a k k' hx => exact absurd h1 h0
  | failReg e hx =>
    obtain ⟨ks, rev, he⟩ := cleanup_eq (noted s e.tx false) e.account e.ingress
    rw [he] at h1
    exact absurd h1 h0
  | failRes e hx => exact absurd h1 h0
  | joined e hx hp hk =>
    rcases List.mem_append.1 h1 with h1 | h1
    · exact absurd h1 h0
    · rw [List.mem_singleton] at h1
      obtain ⟨q1, ⟨k, q2⟩, q3, q4⟩ := hi.pok e hp
      subst h1
      rw [hk] at q2
      exact ⟨e.tx, k, hx, q2, q3⟩
  | left e hx =>
    obtain ⟨ks, he⟩ := complete_eq (noted s e.tx true) e.account e.ingress
    rw [he] at h1
    exact absurd (List.mem_filter.1 h1).1 h0
  | session act dis vis f ks hx => exact absurd h1 h0

/-- **C89, leaving.** An account ceases to be an author only when the bridge reports success for a removal of exactly this account,
published before and not answered yet. -/
theorem C89_leaves_only_when_confirmed (minA : Nat) (vs : List (Nat × Nat)) (h : GoodGenesis minA vs) (xs : List Step) (x : Step)
    (a : Nat) (h0 : a ∈ (run minA (genesis vs) xs).authors) (h1 : a ∉ (run minA (genesis vs) (xs ++ [x])).authors) :
    ∃ t k st, x = .bridgeResult t true true st ∧ .published t .resignation a k ∈ (run minA (genesis vs) xs).log ∧
      ∀ ok, .answered t ok ∉ (run minA (genesis vs) xs).log := by
  obtain ⟨p, hi⟩ := run_inv h xs
  rw [run_snoc] at h1
  have hv := step_view hi x
  generalize hs : run minA (genesis vs) xs = s at *
  generalize hs' : step minA s x = s' at *
  cases hv with
  | same => exact absurd h0 h1
  | other hx => exact absurd h0 h1
  | requested a k d hx => exact absurd h0 h1
  | resigned a k hx => exact absurd h0 h1
  | rotated a k k' hx => exact absurd h0 h1
  | failReg e hx =>
    obtain ⟨ks, rev, he⟩ := cleanup_eq (noted s e.tx false) e.account e.ingress
    rw [he] at h1
    exact absurd h0 h1
  | failRes e hx => exact absurd h0 h1
  | joined e hx hp hk => exact absurd (List.mem_append_left _ h0) h1
  | left e hx hp hk =>
    obtain ⟨ks, he⟩ := complete_eq (noted s e.tx true) e.account e.ingress
    rw [he] at h1
    simp only [noted, List.mem_filter, bne_iff_ne, not_and, not_not] at h1
    obtain ⟨q1, ⟨k, q2⟩, q3, q4⟩ := hi.pok e hp
    obtain ⟨st, hx⟩ := hx
    have := h1 h0
    subst this
    rw [hk] at q2
    exact ⟨e.tx, k, st, hx, q2, q3⟩
  | session act dis vis f ks hx => exact absurd h0 h1

/-- **C89, the effect of a confirmed registration.** The account is an author afterwards, and nobody else joins or leaves. -/
theorem C89_confirmed_registration_joins (minA : Nat) (vs : List (Nat × Nat)) (h : GoodGenesis minA vs) (xs : List Step) (t a k : Nat)
    (h1 : .published t .registration a k ∈ (run minA (genesis vs) xs).log)
    (h2 : ∀ ok, .answered t ok ∉ (run minA (genesis vs) xs).log) :
    (run minA (genesis vs) (xs ++ [.bridgeResult t true true true])).authors = (run minA (genesis vs) xs).authors ++ [a] := by
  obtain ⟨p, hi⟩ := run_inv h xs
  rw [run_snoc]
  generalize run minA (genesis vs) xs = s at *
  obtain ⟨e, hp, h3, h4, h5, h6, h7⟩ := pending_of_published hi h1 h2
  have hq : s.authors.length < maxAuthors := by
    rcases (hi.pok e hp).2.2.2 with q | q
    · exact q.2.2
    · rw [h4] at q; cases q.1
  have h7' : getAction { s with txMap := upd s.txMap t none } a e.ingress = some e := h7
  have hq' : ¬ maxAuthors ≤ s.authors.length := by omega
  simp only [step, processResult, Bool.not_true, Bool.false_eq_true, if_false, h6, h7', h4, if_true, completeRegistration, hq',
    commit]

/-- **C89, the effect of a confirmed removal.** The account is no author afterwards, nobody else joins or leaves. -/
theorem C89_confirmed_removal_leaves (minA : Nat) (vs : List (Nat × Nat)) (h : GoodGenesis minA vs) (xs : List Step) (t a k : Nat)
    (st : Bool) (h1 : .published t .resignation a k ∈ (run minA (genesis vs) xs).log)
    (h2 : ∀ ok, .answered t ok ∉ (run minA (genesis vs) xs).log) :
    (run minA (genesis vs) (xs ++ [.bridgeResult t true true st])).authors =
      (run minA (genesis vs) xs).authors.filter (fun v => v != a) := by
  obtain ⟨p, hi⟩ := run_inv h xs
  rw [run_snoc]
  generalize run minA (genesis vs) xs = s at *
  obtain ⟨e, hp, h3, h4, h5, h6, h7⟩ := pending_of_published hi h1 h2
  have h7' : getAction { s with txMap := upd s.txMap t none } a e.ingress = some e := h7
  obtain ⟨ks, he⟩ := complete_eq { s with txMap := upd s.txMap t none, log := s.log ++ [.answered t true] } a e.ingress
  have he2 : ∀ s0 b i, (completeDeregistration s0 b i).2 = none := fun _ _ _ => rfl
  simp only [step, processResult, Bool.not_true, Bool.false_eq_true, if_false, h6, h7', h4, reduceCtorEq, if_true]
  rw [show completeDeregistration { s with txMap := upd s.txMap t none, log := s.log ++ [.answered t true] } a e.ingress = (_, none) from
    Prod.ext he (he2 _ _ _)]
  rfl

/-- **C89, a failed request changes no author and leaves no open change.** -/
theorem C89_failed_request (minA : Nat) (vs : List (Nat × Nat)) (h : GoodGenesis minA vs) (xs : List Step)
    (x : Step) (t a k : Nat) (kd : Kind) (hx : (∃ st, x = .bridgeResult t true false st) ∨ x = .bridgeDropped t true)
    (h1 : .published t kd a k ∈ (run minA (genesis vs) xs).log)
    (h2 : ∀ ok, .answered t ok ∉ (run minA (genesis vs) xs).log) :
    let s := run minA (genesis vs) xs
    let s' := run minA (genesis vs) (xs ++ [x])
    s'.authors = s.authors ∧ (∀ t', s'.txMap t' = none) ∧ hasActive s' = false ∧ (∀ e ∈ s'.actions, e ∈ s.actions) ∧
      .answered t false ∈ s'.log := by
  intro s s'
  obtain ⟨p, hi⟩ := run_inv h xs
  obtain ⟨p', hi'⟩ := run_inv h (xs ++ [x])
  have hs' : s' = step minA s x := run_snoc ..
  change Inv minA p s at hi
  change Inv minA p' s' at hi'
  change .published t kd a k ∈ s.log at h1
  change ∀ ok, .answered t ok ∉ s.log at h2
  clear_value s s'
  obtain ⟨e, hp, h3, h4, h5, h6, h7⟩ := pending_of_published hi h1 h2
  have h7' : getAction { s with txMap := upd s.txMap t none } a e.ingress = some e := h7
  have hres : ∃ ks rev, ∀ st, processResult s t true false st =
      ({ noted s t false with keys := ks, rev := rev, actions := dropAction s.actions a e.ingress }, none) := by
    rcases (hi.pok e hp).2.2.2 with q | q
    · obtain ⟨ks, rev, hc⟩ := cleanup_eq (noted s t false) a e.ingress
      refine ⟨ks, rev, fun st => ?_⟩
      simp only [processResult, Bool.not_true, Bool.false_eq_true, if_false, h6, h7', q.1, if_true, Bool.not_false]
      exact Prod.ext hc rfl
    · refine ⟨s.keys, s.rev, fun st => ?_⟩
      simp only [processResult, Bool.not_true, Bool.false_eq_true, if_false, h6, h7', q.1, if_true, Bool.not_false, reduceCtorEq]
      rfl
  obtain ⟨ks, rev, hres⟩ := hres
  have hs2 : s' = { noted s t false with keys := ks, rev := rev, actions := dropAction s.actions a e.ingress } := by
    rw [hs']
    rcases hx with ⟨st, rfl⟩ | rfl
    · simp only [step, hres, commit]
    · simp only [step, hres]
  subst hp
  have hno : ∀ y ∈ s'.actions, isActive y.status ≠ true := by
    rw [hs2, ← h5]; exact hi.drop_pend
  refine ⟨by rw [hs2]; rfl, ?_, ?_, ?_, by rw [hs2]; simp [noted]⟩
  · intro t'
    have hp' : p' = none := by
      cases p' with
      | none => rfl
      | some e' =>
        obtain ⟨g1, g2⟩ := (hi'.pend e').2 rfl
        exact absurd g2 (hno _ g1)
    rw [hi'.tx, hp']; rfl
  · unfold hasActive
    rw [List.any_eq_false]; exact hno
  · intro y hy
    rw [hs2] at hy
    exact (mem_dropAction.1 hy).1

/-- **C89, at most one change is in flight.** Two published requests without an answer are the same request. -/
theorem C89_one_in_flight (minA : Nat) (vs : List (Nat × Nat)) (h : GoodGenesis minA vs) (xs : List Step) (t t' a a' y y' : Nat)
    (k k' : Kind) (h1 : .published t k a y ∈ (run minA (genesis vs) xs).log)
    (h2 : ∀ ok, .answered t ok ∉ (run minA (genesis vs) xs).log)
    (h1' : .published t' k' a' y' ∈ (run minA (genesis vs) xs).log)
    (h2' : ∀ ok, .answered t' ok ∉ (run minA (genesis vs) xs).log) : t = t' ∧ k = k' ∧ a = a' := by
  obtain ⟨p, hi⟩ := run_inv h xs
  obtain ⟨e, hp, h3, h4, h5, _⟩ := pending_of_published hi h1 h2
  obtain ⟨e', hp', h3', h4', h5', _⟩ := pending_of_published hi h1' h2'
  rw [hp] at hp'
  simp only [Option.some.injEq] at hp'
  subst hp'
  exact ⟨h3.symm.trans h3', h4.symm.trans h4', h5.symm.trans h5'⟩

/-- C89: while a request is unanswered, further requests are refused. -/
theorem C89_refused_while_open (minA : Nat) (vs : List (Nat × Nat)) (h : GoodGenesis minA vs) (xs : List Step) (t a y : Nat) (k : Kind)
    (h1 : .published t k a y ∈ (run minA (genesis vs) xs).log) (h2 : ∀ ok, .answered t ok ∉ (run minA (genesis vs) xs).log) (x : Step)
    (hx : (∃ a k pos b1 b2 b3, x = .add a k pos b1 b2 b3) ∨ ∃ a b1 b2, x = .remove a b1 b2) :
    run minA (genesis vs) (xs ++ [x]) = run minA (genesis vs) xs := by
  obtain ⟨p, hi⟩ := run_inv h xs
  rw [run_snoc]
  generalize run minA (genesis vs) xs = s at *
  obtain ⟨e, hp, _⟩ := pending_of_published hi h1 h2
  have hne : hasActive s ≠ false := by
    intro hc
    rw [hi.none_of_inactive hc] at hp; cases hp
  have hv := step_view hi x
  generalize step minA s x = s' at *
  cases hv with
  | same => rfl
  | other hx' => subst hx'; rcases hx with ⟨_, _, _, _, _, _, hx⟩ | ⟨_, _, _, hx⟩ <;> cases hx
  | requested a k pos hx' h1 h2 h3 h4 => exact absurd h4 hne
  | resigned a k hx' h1 h2 h3 h4 => exact absurd h4 hne
  | rotated a o n pos hx' => subst hx'; rcases hx with ⟨_, _, _, _, _, _, hx⟩ | ⟨_, _, _, hx⟩ <;> cases hx
  | failReg e hx' => rcases hx' with ⟨_, hx'⟩ | hx' <;> subst hx' <;> rcases hx with ⟨_, _, _, _, _, _, hx⟩ | ⟨_, _, _, hx⟩ <;> cases hx
  | failRes e hx' => rcases hx' with ⟨_, hx'⟩ | hx' <;> subst hx' <;> rcases hx with ⟨_, _, _, _, _, _, hx⟩ | ⟨_, _, _, hx⟩ <;> cases hx
  | joined e hx' => subst hx'; rcases hx with ⟨_, _, _, _, _, _, hx⟩ | ⟨_, _, _, hx⟩ <;> cases hx
  | left e hx' => obtain ⟨_, hx'⟩ := hx'; subst hx'; rcases hx with ⟨_, _, _, _, _, _, hx⟩ | ⟨_, _, _, hx⟩ <;> cases hx
  | session act dis vis f ks hx' => subst hx'; rcases hx with ⟨_, _, _, _, _, _, hx⟩ | ⟨_, _, _, hx⟩ <;> cases hx

/-- **C89, keys** (partial: for histories without key rotations, in whose sessions every author is active or disabled). A key belongs to
one account and an account has one key; the lookup by account agrees with the lookup by key; every author has a key; and every key
belongs to an author or to an account whose registration waits for Ethereum. -/
theorem C89_keys_partial (minA : Nat) (vs : List (Nat × Nat)) (h : GoodGenesis minA vs) (xs : List Step)
    (hc : AllCalm minA (genesis vs) xs) :
    let s := run minA (genesis vs) xs
    (∀ k a a', (k, a) ∈ s.keys → (k, a') ∈ s.keys → a = a') ∧ (∀ k k' a, (k, a) ∈ s.keys → (k', a) ∈ s.keys → k = k') ∧
      (∀ k a, keyOwner s.keys k = some a → s.rev a = some k) ∧
      (∀ a ∈ s.authors, ∃ k, s.rev a = some k ∧ keyOwner s.keys k = some a) ∧
      ∀ k a, keyOwner s.keys k = some a → a ∈ s.authors ∨
        ∃ t x, .published t .registration a x ∈ s.log ∧ ∀ ok, .answered t ok ∉ s.log := by
  intro s
  obtain ⟨p, hi, hk⟩ := run_keyInv h xs hc
  change Inv minA p s at hi
  change KeyInv p s at hk
  clear_value s
  refine ⟨?_, ?_, ?_, ?_, ?_⟩
  · intro k a a' h1 h2
    have := List.inj_on_of_nodup_map hk.fst h1 h2 rfl
    injection this
  · intro k k' a h1 h2
    have := List.inj_on_of_nodup_map hk.snd h1 h2 rfl
    injection this
  · intro k a h1; exact hk.back _ _ ((keyOwner_some hk.fst).1 h1)
  · intro a ha
    obtain ⟨k, hm⟩ := hk.has a ha
    exact ⟨k, hk.back _ _ hm, (keyOwner_some hk.fst).2 hm⟩
  · intro k a h1
    rcases hk.owner _ _ ((keyOwner_some hk.fst).1 h1) with h1 | ⟨e, rfl, h2, h3⟩
    · exact .inl h1
    · obtain ⟨_, ⟨x, q2⟩, q3, _⟩ := hi.pok e rfl
      rw [h2, h3] at q2
      exact .inr ⟨e.tx, x, q2, q3⟩

/-- C89 (same restriction): a removal request names the key registered for that author, so Ethereum removes the right signer. -/
theorem C89_removal_names_the_key_partial (minA : Nat) (vs : List (Nat × Nat)) (h : GoodGenesis minA vs) (xs : List Step)
    (hc : AllCalm minA (genesis vs) xs) (x : Step) (t a k : Nat)
    (h1 : .published t .resignation a k ∈ (run minA (genesis vs) (xs ++ [x])).log)
    (h0 : .published t .resignation a k ∉ (run minA (genesis vs) xs).log) :
    keyOwner (run minA (genesis vs) xs).keys k = some a := by
  obtain ⟨p, hi, hk⟩ := run_keyInv h xs hc
  rw [run_snoc] at h1
  have hv := step_view hi x
  generalize run minA (genesis vs) xs = s at *
  generalize step minA s x = s' at *
  cases hv with
  | same => exact absurd h1 h0
  | other hx => exact absurd h1 h0
  | requested a' k' pos hx =>
    simp only [requested, recordAction, List.mem_append, List.mem_singleton, Obs.published.injEq, reduceCtorEq, false_and, and_false, or_false] at h1
    exact absurd h1 h0
  | resigned a' k' hx g1 g2 =>
    simp only [recordAction, List.mem_append, List.mem_singleton, Obs.published.injEq, true_and] at h1
    rcases h1 with h1 | ⟨_, rfl, rfl⟩
    · exact absurd h1 h0
    · obtain ⟨k', hm⟩ := hk.has _ g1
      have := hk.back _ _ hm
      rw [g2] at this
      injection this with this
      subst this
      exact (keyOwner_some hk.fst).2 hm
  | rotated a' o n pos hx => exact absurd h1 h0
  | failReg e hx =>
    obtain ⟨ks, rev, he⟩ := cleanup_eq (noted s e.tx false) e.account e.ingress
    rw [he] at h1
    simp only [noted, List.mem_append, List.mem_singleton, reduceCtorEq, or_false] at h1
    exact absurd h1 h0
  | failRes e hx =>
    simp only [noted, List.mem_append, List.mem_singleton, reduceCtorEq, or_false] at h1
    exact absurd h1 h0
  | joined e hx hp hk =>
    simp only [noted, List.mem_append, List.mem_singleton, reduceCtorEq, or_false] at h1
    exact absurd h1 h0
  | left e hx =>
    obtain ⟨ks, he⟩ := complete_eq (noted s e.tx true) e.account e.ingress
    rw [he] at h1
    simp only [noted, List.mem_append, List.mem_singleton, reduceCtorEq, or_false] at h1
    exact absurd h1 h0
  | session act dis vis f ks hx => exact absurd h1 h0

theorem busy_calm : AllCalm 2 (genesis gen3) busy := by
  intro ys x hp
  obtain ⟨zs, hz⟩ := hp
  have hl : ys.length < busy.length := by
    rw [← hz]; simp
  have hy : ys = busy.take ys.length := by rw [← hz]; simp
  have hx : busy[ys.length]? = some x := by rw [← hz]; simp
  rw [hy]
  generalize ys.length = n at *
  have : n = 0 ∨ n = 1 ∨ n = 2 ∨ n = 3 ∨ n = 4 ∨ n = 5 ∨ n = 6 := by
    simp [busy] at hl; omega
  rcases this with rfl | rfl | rfl | rfl | rfl | rfl | rfl <;>
    (simp only [busy, List.getElem?_cons_zero, List.getElem?_cons_succ, Option.some.injEq] at hx; subst hx) <;>
    first
    | exact trivial
    | (show ∀ a ∈ _, _
       decide +kernel)

example : ∀ a ∈ (run 2 (genesis gen3) busy).authors, ∃ k, (run 2 (genesis gen3) busy).rev a = some k ∧
    keyOwner (run 2 (genesis gen3) busy).keys k = some a := (C89_keys_partial 2 gen3 gen3_good busy busy_calm).2.2.2.1

/-- C89, why the key claims are only partial (1): rotating a key does not update the lookup by account, so a later removal asks Ethereum
to remove the old key, and the author's current key 203 is not the one named. -/
theorem C89_rotation_breaks_removal :
    let s := run 2 (genesis gen3) [.rotate 3 103 203 0, .remove 3 true true]
    s.log = [.published 0 .resignation 3 103] ∧ keyOwner s.keys 103 = none ∧ keyOwner s.keys 203 = some 3 := by
  decide +kernel

/-- C89, why (2): a key rotated while its registration waits for Ethereum survives the failure of that registration: key 204 stays
assigned to the account 4, which is no author, and no later registration can use it. -/
theorem C89_stray_key_after_failure :
    let s := run 2 (genesis gen3) [.add 4 104 0 true true true, .rotate 4 104 204 0, .bridgeResult 0 true false true]
    keyOwner s.keys 204 = some 4 ∧ s.authors = [1, 2, 3] ∧ hasActive s = false ∧
      (addAuthor s 4 204 0 true true true).2 = some .ethKeyAlreadyExists := by
  decide +kernel

/-- C89, why (3): a session in which the author being removed is neither active nor disabled drops its key before Ethereum answers; if
Ethereum then refuses the removal, the author stays without a key. -/
theorem C89_author_without_key :
    let s := run 2 (genesis gen3) [.remove 3 true true, .session [1, 2] [] [(3, 1)], .bridgeResult 0 true false true]
    s.authors = [1, 2, 3] ∧ s.keys = [(101, 1), (102, 2)] := by
  decide +kernel

/-- C89, a leftover: a removed author's entry in the lookup by account is never cleared, though its key is free for others. -/
theorem C89_stale_lookup (minA : Nat) (vs : List (Nat × Nat)) (h : GoodGenesis minA vs) (xs : List Step) (t a k : Nat) (st : Bool)
    (h1 : .published t .resignation a k ∈ (run minA (genesis vs) xs).log)
    (h2 : ∀ ok, .answered t ok ∉ (run minA (genesis vs) xs).log) :
    (run minA (genesis vs) (xs ++ [.bridgeResult t true true st])).rev = (run minA (genesis vs) xs).rev := by
  obtain ⟨p, hi⟩ := run_inv h xs
  rw [run_snoc]
  generalize run minA (genesis vs) xs = s at *
  obtain ⟨e, hp, h3, h4, h5, h6, h7⟩ := pending_of_published hi h1 h2
  have h7' : getAction { s with txMap := upd s.txMap t none } a e.ingress = some e := h7
  obtain ⟨ks, he⟩ := complete_eq { s with txMap := upd s.txMap t none, log := s.log ++ [.answered t true] } a e.ingress
  have he2 : ∀ s0 b i, (completeDeregistration s0 b i).2 = none := fun _ _ _ => rfl
  simp only [step, processResult, Bool.not_true, Bool.false_eq_true, if_false, h6, h7', h4, reduceCtorEq, if_true]
  rw [show completeDeregistration { s with txMap := upd s.txMap t none, log := s.log ++ [.answered t true] } a e.ingress = (_, none) from
    Prod.ext he (he2 _ _ _)]
  rfl

/-- The hypotheses hold in histories: a registration of 4 is in flight, other requests are refused; a removal of 3 is in flight. -/
example : (run 2 (genesis gen3) [.add 4 104 1 true true true]).log = [.published 0 .registration 4 104] ∧
    (run 2 (genesis gen3) [.add 4 104 1 true true true]).keys = [(101, 1), (104, 4), (102, 2), (103, 3)] ∧
    (run 2 (genesis gen3) [.remove 3 true true]).log = [.published 0 .resignation 3 103] := by decide +kernel

example : (run 2 (genesis gen3) [.add 4 104 1 true true true, .bridgeDropped 0 true]).rev 4 = none := by decide +kernel

end Verif.Authors
