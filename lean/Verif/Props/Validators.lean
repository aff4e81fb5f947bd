import Verif.Lemmas.Validators

/-!
# C53, C54, C55: the validators manager

Histories start from a genesis with distinct accounts and distinct Ethereum keys, at least `minV` (`MinimumValidatorCount`) and at
most 256 validators, and are arbitrary sequences of administrator calls, bridge results and sessions.
-/

namespace Verif.Validators

/-- Three validators at genesis, with a minimum of two. -/
def gen3 : List (Nat × Nat) := [(1, 101), (2, 102), (3, 103)]

theorem gen3_good : GoodGenesis 2 gen3 := ⟨by decide, by decide, by decide, by decide⟩

/-- A registration and a resignation which both succeed, with sessions between. -/
def busy : List Step :=
  [.add 4 104 0 true true true true, .rotate 4 104 204, .bridgeResult 0 true true true,
   .session [1, 2, 3, 4] [] (fun _ => true) [(4, 1)], .session [1, 2, 3, 4] [] (fun _ => true) [(4, 1)],
   .remove 2 true true, .otherPublish, .bridgeResult 1 true true true]

example : (run 2 (genesis gen3) busy).validators = [1, 3, 4] := by decide +kernel

/-- **C53.** At every time the validator set has no duplicates, at least the minimum and at most 256 members. -/
theorem C53_bounds (minV : Nat) (vs : List (Nat × Nat)) (h : GoodGenesis minV vs) (xs : List Step) :
    (run minV (genesis vs) xs).validators.Nodup ∧ minV ≤ (run minV (genesis vs) xs).validators.length ∧
      (run minV (genesis vs) xs).validators.length ≤ 256 := by
  obtain ⟨p, hi⟩ := run_inv h xs
  exact ⟨hi.nodup, hi.lo, hi.hi⟩

example : (run 2 (genesis gen3) busy).validators.Nodup ∧ 2 ≤ (run 2 (genesis gen3) busy).validators.length ∧
    (run 2 (genesis gen3) busy).validators.length ≤ 256 := C53_bounds 2 gen3 gen3_good busy

/-- C53, the boundary: with the minimum number of validators, a removal request is refused. -/
theorem C53_no_removal_at_minimum (minV : Nat) (s : State) (h : s.validators.length ≤ minV) (a : Nat) (ko bo : Bool) :
    step minV s (.remove a ko bo) = s := by
  simp only [step, removeValidator]
  rw [if_pos h]; rfl

/-- C53, the boundary: with 256 validators, a registration request is refused. -/
theorem C53_no_registration_at_maximum (minV : Nat) (s : State) (h : s.validators.length = 256) (a k d : Nat) (b1 b2 b3 b4 : Bool) :
    step minV s (.add a k d b1 b2 b3 b4) = s := by
  have h4 : maxValidators ≤ s.validators.length := by simp [maxValidators, h]
  simp only [step, addCollator]
  by_cases h1 : s.validators = []
  · rw [if_pos h1]; rfl
  rw [if_neg h1]
  by_cases h2 : a ∈ s.validators
  · rw [if_pos h2]; rfl
  rw [if_neg h2]
  by_cases h3 : (s.keys k).isSome = true
  · rw [if_pos h3]; rfl
  rw [if_neg h3, if_pos h4]; rfl

/-- **C54.** At every time the two key lookups are inverse to each other, and every validator has a key. -/
theorem C54_bijection (minV : Nat) (vs : List (Nat × Nat)) (h : GoodGenesis minV vs) (xs : List Step) :
    (∀ k a, (run minV (genesis vs) xs).keys k = some a ↔ (run minV (genesis vs) xs).rev a = some k) ∧
      ∀ a ∈ (run minV (genesis vs) xs).validators, ∃ k, (run minV (genesis vs) xs).rev a = some k := by
  obtain ⟨p, hi⟩ := run_inv h xs
  exact ⟨hi.bij, fun a ha => Option.isSome_iff_exists.mp (hi.hasKey a ha)⟩

/-- C54, no sharing: two accounts never have the same key, in either lookup direction. -/
theorem C54_keys_not_shared (minV : Nat) (vs : List (Nat × Nat)) (h : GoodGenesis minV vs) (xs : List Step) (a b k : Nat)
    (ha : (run minV (genesis vs) xs).rev a = some k) (hb : (run minV (genesis vs) xs).rev b = some k) : a = b := by
  have hb' := (C54_bijection minV vs h xs).1
  have h1 := (hb' k a).mpr ha
  rw [(hb' k b).mpr hb] at h1
  simpa using h1.symm

/-- C54: an account with a key is a validator, or its registration is waiting for Ethereum. -/
theorem C54_no_stray_keys (minV : Nat) (vs : List (Nat × Nat)) (h : GoodGenesis minV vs) (xs : List Step) (a k : Nat)
    (ha : (run minV (genesis vs) xs).rev a = some k) :
    a ∈ (run minV (genesis vs) xs).validators ∨ ∃ t, .published t .registration a ∈ (run minV (genesis vs) xs).log ∧
      ∀ ok, .answered t ok ∉ (run minV (genesis vs) xs).log := by
  obtain ⟨p, hi⟩ := run_inv h xs
  rcases hi.keyOf a k ha with h1 | ⟨e, h1, h2, h3⟩
  · exact Or.inl h1
  · obtain ⟨q1, q2, q3, q4⟩ := hi.pok e h1
    rw [h2, h3] at q2
    exact Or.inr ⟨e.tx, q2, q3⟩

example : (run 2 (genesis gen3) busy).rev 4 = some 204 ∧ (run 2 (genesis gen3) busy).keys 204 = some 4 ∧
    (run 2 (genesis gen3) busy).keys 104 = none ∧ (run 2 (genesis gen3) busy).rev 2 = none ∧
    (run 2 (genesis gen3) busy).keys 102 = none := by decide +kernel

/-- **C55, joining.** An account becomes a validator only when the bridge reports success for a registration of exactly this account,
published before and not answered yet. -/
theorem C55_joins_only_when_confirmed (minV : Nat) (vs : List (Nat × Nat)) (h : GoodGenesis minV vs) (xs : List Step) (x : Step)
    (a : Nat) (h0 : a ∉ (run minV (genesis vs) xs).validators) (h1 : a ∈ (run minV (genesis vs) (xs ++ [x])).validators) :
    ∃ t, x = .bridgeResult t true true true ∧ .published t .registration a ∈ (run minV (genesis vs) xs).log ∧
      ∀ ok, .answered t ok ∉ (run minV (genesis vs) xs).log := by
  obtain ⟨p, hi⟩ := run_inv h xs
  rw [run_snoc] at h1
  have hv := step_view hi x
  generalize hs : run minV (genesis vs) xs = s at *
  generalize hs' : step minV s x = s' at *
  cases hv with
  | same => exact absurd h1 h0
  | other hx => exact absurd h1 h0
  | requested a k d hx => exact absurd h1 h0
  | resigned a k hx => exact absurd h1 h0
  | rotated a k k' hx => exact absurd h1 h0
  | failReg e k hx => exact absurd h1 h0
  | failRes e hx => exact absurd h1 h0
  | joined e hx hp hk =>
    simp only [joined, List.mem_append, List.mem_singleton] at h1
    rcases h1 with h1 | h1
    · exact absurd h1 h0
    · obtain ⟨q1, q2, q3, q4⟩ := hi.pok e hp
      subst h1
      rw [hk] at q2
      exact ⟨e.tx, hx, q2, q3⟩
  | left e k hx =>
    simp only [left, List.mem_filter] at h1
    exact absurd h1.1 h0
  | session s' hx hd => rw [hd.eq] at h1; exact absurd h1 h0

/-- **C55, leaving.** An account ceases to be a validator only when the bridge reports success for a removal of exactly this account,
published before and not answered yet. -/
theorem C55_leaves_only_when_confirmed (minV : Nat) (vs : List (Nat × Nat)) (h : GoodGenesis minV vs) (xs : List Step) (x : Step)
    (a : Nat) (h0 : a ∈ (run minV (genesis vs) xs).validators) (h1 : a ∉ (run minV (genesis vs) (xs ++ [x])).validators) :
    ∃ t, x = .bridgeResult t true true true ∧ .published t .resignation a ∈ (run minV (genesis vs) xs).log ∧
      ∀ ok, .answered t ok ∉ (run minV (genesis vs) xs).log := by
  obtain ⟨p, hi⟩ := run_inv h xs
  rw [run_snoc] at h1
  have hv := step_view hi x
  generalize hs : run minV (genesis vs) xs = s at *
  generalize hs' : step minV s x = s' at *
  cases hv with
  | same => exact absurd h0 h1
  | other hx => exact absurd h0 h1
  | requested a k d hx => exact absurd h0 h1
  | resigned a k hx => exact absurd h0 h1
  | rotated a k k' hx => exact absurd h0 h1
  | failReg e k hx => exact absurd h0 h1
  | failRes e hx => exact absurd h0 h1
  | joined e hx hp hk =>
    simp only [joined, List.mem_append, List.mem_singleton] at h1
    exact absurd (Or.inl h0) h1
  | left e k hx hp hk =>
    simp only [left, List.mem_filter, bne_iff_ne] at h1
    have : a = e.account := by
      by_contra hne
      exact h1 ⟨h0, hne⟩
    obtain ⟨q1, q2, q3, q4⟩ := hi.pok e hp
    subst this
    rw [hk] at q2
    exact ⟨e.tx, hx, q2, q3⟩
  | session s' hx hd => rw [hd.eq] at h1; exact absurd h0 h1

/-- The pending change of a published, unanswered request. -/
theorem pending_of_published {minV : Nat} {p : Option Entry} {s : State} (hi : Inv minV p s) {t a : Nat} {k : Kind}
    (h1 : .published t k a ∈ s.log) (h2 : ∀ ok, .answered t ok ∉ s.log) :
    ∃ e, p = some e ∧ e.tx = t ∧ e.kind = k ∧ e.account = a ∧ s.txMap t = some (a, e.ingress) ∧
      getAction s a e.ingress = some e := by
  obtain ⟨_, ⟨ok, h3⟩ | ⟨e, h3, h4, h5, h6⟩⟩ := hi.logP _ _ _ h1
  · exact absurd h3 (h2 ok)
  · have ht : s.txMap t = some (a, e.ingress) := by
      rw [hi.tx, h3]; simp [h4, h6]
    refine ⟨e, h3, h4, h5, h6, ht, ?_⟩
    obtain ⟨e', g1, _, _, _, g5⟩ := hi.pending ht
    rw [h3] at g1
    simp only [Option.some.injEq] at g1
    subst g1; exact g5

/-- **C55, the effect of a confirmed registration.** The account is a validator afterwards, provided staking accepts it. -/
theorem C55_confirmed_registration_joins (minV : Nat) (vs : List (Nat × Nat)) (h : GoodGenesis minV vs) (xs : List Step) (t a : Nat)
    (h1 : .published t .registration a ∈ (run minV (genesis vs) xs).log)
    (h2 : ∀ ok, .answered t ok ∉ (run minV (genesis vs) xs).log) :
    (run minV (genesis vs) (xs ++ [.bridgeResult t true true true])).validators =
      (run minV (genesis vs) xs).validators ++ [a] := by
  obtain ⟨p, hi⟩ := run_inv h xs
  rw [run_snoc]
  generalize run minV (genesis vs) xs = s at *
  obtain ⟨e, hp, h3, h4, h5, h6, h7⟩ := pending_of_published hi h1 h2
  have hq : s.validators.length < maxValidators := by
    rcases (hi.pok e hp).2.2.2 with q | q
    · exact q.2.2.1
    · rw [h4] at q; cases q.1
  have h7' : getAction { s with txMap := upd s.txMap t none } a e.ingress = some e := h7
  have hq' : ¬ maxValidators ≤ s.validators.length := by omega
  simp only [step, processResult, Bool.not_true, Bool.false_eq_true, if_false, h6, h7', h4, if_true, completeRegistration, hq',
    commit]

/-- **C55, the effect of a confirmed removal.** The account is no longer a validator afterwards, provided staking accepts it. -/
theorem C55_confirmed_removal_leaves (minV : Nat) (vs : List (Nat × Nat)) (h : GoodGenesis minV vs) (xs : List Step) (t a : Nat)
    (h1 : .published t .resignation a ∈ (run minV (genesis vs) xs).log)
    (h2 : ∀ ok, .answered t ok ∉ (run minV (genesis vs) xs).log) :
    (run minV (genesis vs) (xs ++ [.bridgeResult t true true true])).validators =
      (run minV (genesis vs) xs).validators.filter (fun v => v != a) ∧
    (run minV (genesis vs) (xs ++ [.bridgeResult t true true true])).rev a = none ∧
    ∀ k, (run minV (genesis vs) (xs ++ [.bridgeResult t true true true])).keys k ≠ some a := by
  have hb := (C54_bijection minV vs h (xs ++ [.bridgeResult t true true true])).1
  obtain ⟨p, hi⟩ := run_inv h xs
  rw [run_snoc] at hb ⊢
  generalize run minV (genesis vs) xs = s at *
  obtain ⟨e, hp, h3, h4, h5, h6, h7⟩ := pending_of_published hi h1 h2
  have hq : a ∈ s.validators := by
    rcases (hi.pok e hp).2.2.2 with q | q
    · rw [h4] at q; cases q.1
    · rw [← h5]; exact q.2.1
  obtain ⟨k0, hk0⟩ := Option.isSome_iff_exists.mp (hi.hasKey _ hq)
  have h7' : getAction { s with txMap := upd s.txMap t none } a e.ingress = some e := h7
  have hstep : (step minV s (.bridgeResult t true true true)).validators = s.validators.filter (fun v => v != a) ∧
      (step minV s (.bridgeResult t true true true)).rev a = none := by
    simp only [step, processResult, Bool.not_true, Bool.false_eq_true, if_false, h6, h7', h4, if_true,
      completeDeregistration, commit, removeKey, hk0, reduceCtorEq, upd_same, and_self]
  refine ⟨hstep.1, hstep.2, ?_⟩
  intro k hk
  have := (hb k a).mp hk
  rw [hstep.2] at this
  cases this

/-- **C55, a failed registration leaves no trace.** The validators are unchanged, the account has no key in either direction, no stored
deposit and no action entry that is still waiting; only the ingress and transaction counters moved. -/
theorem C55_failed_registration_leaves_no_trace (minV : Nat) (vs : List (Nat × Nat)) (h : GoodGenesis minV vs) (xs : List Step)
    (x : Step) (t a : Nat) (hx : (∃ st, x = .bridgeResult t true false st) ∨ x = .bridgeDropped t true)
    (h1 : .published t .registration a ∈ (run minV (genesis vs) xs).log)
    (h2 : ∀ ok, .answered t ok ∉ (run minV (genesis vs) xs).log) :
    let s := run minV (genesis vs) xs
    let s' := run minV (genesis vs) (xs ++ [x])
    s'.validators = s.validators ∧ s'.rev a = none ∧ (∀ k, s'.keys k ≠ some a) ∧ (∀ a', s'.deposits a' = none) ∧
      (∀ t', s'.txMap t' = none) ∧ (∀ e ∈ s'.actions, e ∈ s.actions ∧ e.status ≠ .awaiting) ∧
      ∀ b k, b ≠ a → (s'.rev b = some k ↔ s.rev b = some k) := by
  intro s s'
  have hb := (C54_bijection minV vs h (xs ++ [x])).1
  obtain ⟨p, hi⟩ := run_inv h xs
  obtain ⟨p', hi'⟩ := run_inv h (xs ++ [x])
  have hs' : s' = step minV s x := run_snoc ..
  change Inv minV p s at hi
  change Inv minV p' s' at hi'
  change ∀ k a, s'.keys k = some a ↔ s'.rev a = some k at hb
  change .published t .registration a ∈ s.log at h1
  change ∀ ok, .answered t ok ∉ s.log at h2
  clear_value s s'
  obtain ⟨e, hp, h3, h4, h5, h6, h7⟩ := pending_of_published hi h1 h2
  have hq : a ∉ s.validators ∧ (s.rev a).isSome := by
    rcases (hi.pok e hp).2.2.2 with q | q
    · rw [← h5]; exact ⟨q.2.1, q.2.2.2⟩
    · rw [h4] at q; cases q.1
  obtain ⟨k0, hk0⟩ := Option.isSome_iff_exists.mp hq.2
  have h7' : getAction { s with txMap := upd s.txMap t none } a e.ingress = some e := h7
  have hres : ∀ st, processResult s t true false st = (failReg s t a e.ingress k0, none) := by
    intro st
    simp only [processResult, Bool.not_true, Bool.false_eq_true, if_false, h6, h7', h4, if_true, Bool.not_false,
      cleanupRegistration, removeKey, hk0, failReg]
  have hs2 : s' = failReg s t a e.ingress k0 := by
    rw [hs']
    rcases hx with ⟨st, rfl⟩ | rfl
    · simp only [step, hres, commit]
    · simp only [step, hres]
  have hd : ∀ a', s'.deposits a' = none := by
    intro a'
    rw [hs2]
    simp only [failReg, upd_apply]
    split
    · rfl
    · rename_i hne
      cases hdd : s.deposits a' with
      | none => rfl
      | some d =>
        obtain ⟨e', g1, g2, _⟩ := hi.depOf _ _ hdd
        rw [hp] at g1
        simp only [Option.some.injEq] at g1
        subst g1
        exact absurd (g2.symm.trans h5) hne
  refine ⟨by rw [hs2]; rfl, by rw [hs2]; simp [failReg], ?_, hd, ?_, ?_, ?_⟩
  · intro k hk
    have := (hb k a).mp hk
    rw [hs2] at this
    simp [failReg] at this
  · intro t'
    rw [hs2]
    have hi2 := hi
    rw [hp] at hi2
    have := upd_tx_none hi2 t'
    rw [h3] at this
    exact this
  · intro e' he'
    rw [hs2] at he'
    obtain ⟨g1, g2⟩ := mem_dropAction.mp he'
    refine ⟨g1, ?_⟩
    intro g3
    have := (hi.pend e').mp ⟨g1, g3⟩
    rw [hp] at this
    simp only [Option.some.injEq] at this
    subst this
    apply g2
    simp [ekey, h5]
  · intro b k hne
    rw [hs2]
    simp [failReg, upd_apply, hne]

/-- **C55, at most one change is in flight.** Two published requests without an answer are the same request. -/
theorem C55_one_in_flight (minV : Nat) (vs : List (Nat × Nat)) (h : GoodGenesis minV vs) (xs : List Step) (t t' a a' : Nat)
    (k k' : Kind) (h1 : .published t k a ∈ (run minV (genesis vs) xs).log)
    (h2 : ∀ ok, .answered t ok ∉ (run minV (genesis vs) xs).log)
    (h1' : .published t' k' a' ∈ (run minV (genesis vs) xs).log)
    (h2' : ∀ ok, .answered t' ok ∉ (run minV (genesis vs) xs).log) : t = t' ∧ k = k' ∧ a = a' := by
  obtain ⟨p, hi⟩ := run_inv h xs
  obtain ⟨e, hp, h3, h4, h5, _⟩ := pending_of_published hi h1 h2
  obtain ⟨e', hp', h3', h4', h5', _⟩ := pending_of_published hi h1' h2'
  rw [hp] at hp'
  simp only [Option.some.injEq] at hp'
  subst hp'
  exact ⟨h3.symm.trans h3', h4.symm.trans h4', h5.symm.trans h5'⟩

/-- C55: the requests published in a history have distinct transaction ids, so "the transaction published for this change" is
unambiguous. -/
theorem C55_one_change_per_transaction (minV : Nat) (vs : List (Nat × Nat)) (h : GoodGenesis minV vs) (xs : List Step) :
    ((run minV (genesis vs) xs).log.filterMap fun o => match o with
      | .published t _ _ => some t
      | .answered _ _ => none).Nodup := by
  induction xs using List.reverseRecOn with
  | nil => simp [run, genesis]
  | append_singleton xs x ih =>
    obtain ⟨p, hi⟩ := run_inv h xs
    rw [run_snoc]
    have hv := step_view hi x
    generalize hs : run minV (genesis vs) xs = s at *
    have hrec : ∀ (s0 : State) (a : Nat) (k : Kind), s0.log = s.log → s0.nextTx = s.nextTx →
        ((recordAction s0 a k).log.filterMap fun o => match o with
          | .published t _ _ => some t
          | .answered _ _ => none).Nodup := by
      intro s0 a k e1 e2
      simp only [recordAction, e1, e2, List.filterMap_append]
      rw [List.nodup_append]
      refine ⟨ih, by simp, ?_⟩
      intro t ht t' ht' heq
      simp only [List.filterMap_cons, List.filterMap_nil, List.mem_singleton] at ht'
      subst ht' heq
      obtain ⟨o, ho, ho'⟩ := List.mem_filterMap.mp ht
      cases o with
      | published t2 k2 a2 =>
        simp only [Option.some.injEq] at ho'
        subst ho'
        exact absurd (hi.logP _ _ _ ho).1 (Nat.lt_irrefl _)
      | answered t2 ok => cases ho'
    generalize hs' : step minV s x = s' at *
    cases hv with
    | same => exact ih
    | other hx => exact ih
    | requested a k d hx => exact hrec _ _ _ rfl rfl
    | resigned a k hx => exact hrec _ _ _ rfl rfl
    | rotated a k k' hx => exact ih
    | failReg e k hx => simpa [failReg, List.filterMap_append] using ih
    | failRes e hx => simpa [failRes, List.filterMap_append] using ih
    | joined e hx hp hk => simpa [joined, List.filterMap_append] using ih
    | left e k hx hp hk => simpa [left, List.filterMap_append] using ih
    | session s' hx hd => rw [hd.eq]; exact ih

/-- C55, a limit of the design: when Ethereum confirmed a registration but staking refuses the account, the bridge's report fails and
nothing changes, so the request stays in flight until staking accepts, or until the bridge drops the request (`bridgeDropped`), which
then erases a registration that did happen on Ethereum. -/
theorem C55_staking_refusal_blocks (minV : Nat) (vs : List (Nat × Nat)) (h : GoodGenesis minV vs) (xs : List Step) (t a : Nat)
    (k : Kind) (h1 : .published t k a ∈ (run minV (genesis vs) xs).log)
    (h2 : ∀ ok, .answered t ok ∉ (run minV (genesis vs) xs).log) :
    run minV (genesis vs) (xs ++ [.bridgeResult t true true false]) = run minV (genesis vs) xs := by
  obtain ⟨p, hi⟩ := run_inv h xs
  rw [run_snoc]
  generalize run minV (genesis vs) xs = s at *
  obtain ⟨e, hp, h3, h4, h5, h6, h7⟩ := pending_of_published hi h1 h2
  have h7' : getAction { s with txMap := upd s.txMap t none } a e.ingress = some e := h7
  rcases (hi.pok e hp).2.2.2 with q | q
  · have hq' : ¬ maxValidators ≤ s.validators.length := by omega
    simp only [step, processResult, Bool.not_true, Bool.false_eq_true, if_false, h6, h7', q.1, if_true, completeRegistration, hq',
      Bool.not_false, commit]
  · simp only [step, processResult, Bool.not_true, Bool.false_eq_true, if_false, h6, h7', q.1, if_true, completeDeregistration,
      Bool.not_false, commit, reduceCtorEq]

/-- The hypotheses of the C55 theorems hold in a history: a registration of 4 is in flight, another request is refused. -/
example : (run 2 (genesis gen3) [.add 4 104 7 true true true true]).log = [.published 0 .registration 4] ∧
    (run 2 (genesis gen3) [.add 4 104 7 true true true true, .remove 2 true true, .add 5 105 7 true true true true]).log =
      [.published 0 .registration 4] ∧
    (run 2 (genesis gen3) [.add 4 104 7 true true true true]).deposits 4 = some 7 ∧
    (run 2 (genesis gen3) [.add 4 104 7 true true true true]).rev 4 = some 104 := by decide +kernel

example : (run 2 (genesis gen3) [.add 4 104 7 true true true true, .bridgeDropped 0 true]).rev 4 = none := by decide +kernel

example : (run 2 (genesis gen3) [.remove 3 true true]).log = [.published 0 .resignation 3] := by decide +kernel

end Verif.Validators
