import Verif.Lemmas.Governed3

/-! # Accounts that authorise nothing: lemmas -/

namespace Verif.Governed

open Verif.Authority (Leaf Origin Env privileged Quiet WithoutPower)

theorem each_keeps {P : Pallet} {Q : P.State → P.Step → Prop} {G : P.Step → Prop} {I : P.State → Prop}
    (hs : ∀ t x, I t → Q t x → G x → I (P.step t x)) : ∀ (xs : List P.Step) (s : P.State), I s → Each P Q s xs → (∀ x ∈ xs, G x) → I (xs.foldl P.step s)
  | [], _, h0, _, _ => h0
  | x :: xs, s, h0, h1, h2 =>
    each_keeps hs xs _ (hs s x h0 h1.1 (h2 x List.mem_cons_self)) h1.2 (fun y hy => h2 y (List.mem_cons_of_mem _ hy))

/-- A condition that holds of all the steps in every state holds along the history. -/
theorem each_of_forall {P : Pallet} {Q : P.State → P.Step → Prop} : ∀ (xs : List P.Step) (s : P.State), (∀ x ∈ xs, ∀ t, Q t x) → Each P Q s xs
  | [], _, _ => trivial
  | x :: xs, _, h => ⟨h x List.mem_cons_self _, each_of_forall xs _ (fun y hy => h y (List.mem_cons_of_mem _ hy))⟩

theorem along_of_forall {E : Env} {P : Pallet} {Q : P.State → P.Step → Prop} : ∀ (h : List (Authority.Step × List P.Step)) (c : Authority.Chain × P.State),
    (∀ y ∈ h, ∀ x ∈ y.2, ∀ t, Q t x) → Along E P Q c h
  | [], _, _ => trivial
  | y :: h, _, hh => ⟨each_of_forall _ _ (fun x hx => hh y List.mem_cons_self x (List.mem_filter.mp hx).1),
      along_of_forall h _ (fun z hz => hh z (List.mem_cons_of_mem _ hz))⟩

theorem asked_append {E : Env} (h : List Authority.Step) {s : Authority.Chain} {a : Acct} (ha : Authority.Asked s a) (k : Option Acct)
    (before : List Authority.Step) (hs : s = Authority.run E (Authority.genesis k) before) (hq : Quiet s) (hw : WithoutPower E s h) :
    Authority.Asked (Authority.run E s h) a := by
  subst hs
  obtain ⟨-, -, new, e, -⟩ := Authority.C128_no_authority_without_sudo_or_vote E k before h hq hw
  rw [← arun_append]
  unfold Authority.Asked at ha ⊢
  rw [e]
  simp only [List.mem_append]
  rcases ha with ha | ha
  · exact Or.inl (Or.inl ha)
  · exact Or.inr (Or.inl ha)

/-- An invariant that every step keeps that meets the condition, is not a privileged call of root, and does not carry out a lower for an account that did not ask. -/
theorem run_keeps_along (E : Env) (P : Pallet) (k₀ : Option Acct) (Q : P.State → P.Step → Prop) (I : P.State → Prop) (t : Acct)
    (hs : ∀ s x, I s → Q s x → (∀ l, P.rootCall x = some l → l ∉ privileged ∧ l ≠ .executeLower t) → I (P.step s x)) :
    ∀ (h : List (Authority.Step × List P.Step)) (before : List Authority.Step) (s : P.State),
    Quiet (Authority.run E (Authority.genesis k₀) before) → WithoutPower E (Authority.run E (Authority.genesis k₀) before) (h.map Prod.fst) →
    ¬ Authority.Asked (Authority.run E (Authority.genesis k₀) (before ++ h.map Prod.fst)) t →
    Along E P Q (Authority.run E (Authority.genesis k₀) before, s) h → I s →
    I (run E P (Authority.run E (Authority.genesis k₀) before, s) h).2
  | [], _, _, _, _, _, _, h0 => h0
  | (y, ys) :: h, before, s, hq, hw, hn, hal, h0 => by
    obtain ⟨w1, w2⟩ := withoutPower_append [y] (h.map Prod.fst) _ hw
    obtain ⟨-, hq', new, e, hnew⟩ := Authority.C128_no_authority_without_sudo_or_vote E k₀ before [y] hq w1
    rw [← arun_append] at w2
    have ea : Authority.step E (Authority.run E (Authority.genesis k₀) before) y = Authority.run E (Authority.genesis k₀) (before ++ [y]) := by
      rw [arun_append]; rfl
    have ec : step E P (Authority.run E (Authority.genesis k₀) before, s) (y, ys) =
        (Authority.run E (Authority.genesis k₀) (before ++ [y]), (ys.filter (possible P new)).foldl P.step s) := by
      unfold step
      dsimp only
      rw [ea, e, List.drop_left]
    have el : before ++ ((y, ys) :: h).map Prod.fst = (before ++ [y]) ++ h.map Prod.fst := by simp
    have hna : ¬ Authority.Asked (Authority.run E (Authority.genesis k₀) (before ++ [y])) t := by
      intro ha
      refine hn ?_
      rw [el, arun_append]
      exact asked_append (h.map Prod.fst) ha k₀ (before ++ [y]) rfl hq' w2
    obtain ⟨a1, a2⟩ := hal
    dsimp only at a1
    rw [ea, e, List.drop_left] at a1
    have h1 : I ((ys.filter (possible P new)).foldl P.step s) := by
      refine each_keeps (G := fun x => ∀ l, P.rootCall x = some l → l ∉ privileged ∧ l ≠ .executeLower t) hs _ s h0 a1 ?_
      intro x hx l hl
      have hp := (List.mem_filter.mp hx).2
      unfold possible at hp
      rw [hl] at hp
      obtain ⟨q, hq1, hq2⟩ := List.any_eq_true.mp hp
      have := hnew q.1 q.2 hq1
      rw [of_decide_eq_true hq2] at this
      exact ⟨this.1, fun ee => hna (this.2.2 t ee)⟩
    rw [ec] at a2
    show I (run E P (step E P _ (y, ys)) h).2
    rw [ec]
    exact run_keeps_along E P k₀ Q I t hs h (before ++ [y]) _ hq' w2 (by rw [← el]; exact hn) a2 h1

/-! ### Accounts that authorise nothing -/

open Verif.TokenManager (moved moved_to moved_other moved_zero)

/-- The account authorises nothing in this step: no key signs for it, no call is made as it and no fee is asked of it; other pallets take nothing from it. -/
def Untouched (t : Acct) (s : TokenManager.State) (x : TokenManager.Env × TokenManager.Step) : Prop :=
  (∀ p b, p.signer = t → verifySignature x.1.crypto p b = false) ∧ (∀ n m avt, avt t ≤ (x.1.growthHandler n m avt).1 t) ∧
  match x.2 with
  | .signedTransfer o _ _ _ _ _ => o ≠ t
  | .scheduleDirectLower o _ _ _ _ => o ≠ t
  | .scheduleSignedLower o _ _ _ _ _ => o ≠ t
  | .payFee _ _ p _ => p ≠ t
  | .payTreasury _ p => p ≠ t
  | .external avt' => s.avt t ≤ avt' t
  | _ => True

/-- No less than before, and no lower of the account waits. -/
structure Keeps (t : Acct) (s s' : TokenManager.State) : Prop where
  bal : ∀ k, s.bal k t ≤ s'.bal k t
  avt : s.avt t ≤ s'.avt t
  none : ∀ i c, s'.scheduled i = some c → c.sender ≠ t

theorem moved_ge {m : Acct → Nat} {f d t : Acct} {a : Nat} (h : f ≠ t) : m t ≤ moved m f d a t := by
  unfold moved
  simp only [upd_apply]
  repeat' split
  all_goals first | omega | (subst_vars; first | omega | (exfalso; exact h rfl))

theorem moves_ge {s : TokenManager.State} {k : Addr} {f d t : Acct} {a : Nat} {bal' avt'} (h : TokenManager.Moves s k f d a bal' avt') (hf : f ≠ t) :
    (∀ k, s.bal k t ≤ bal' k t) ∧ s.avt t ≤ avt' t := by
  rcases h with ⟨-, rfl, ⟨-, rfl⟩ | ⟨-, rfl, -, -⟩⟩ | ⟨-, rfl, rfl, -, -⟩
  · exact ⟨fun _ => Nat.le_refl _, Nat.le_refl _⟩
  · exact ⟨fun _ => Nat.le_refl _, moved_ge hf⟩
  · refine ⟨fun k' => ?_, Nat.le_refl _⟩
    by_cases e : k' = k
    · subst e; rw [upd_same]; exact moved_ge hf
    · rw [upd_ne _ _ e]

theorem upd_add_ge {m : Acct → Nat} {w t : Acct} {a : Nat} : m t ≤ upd m w (m w + a) t := by
  rw [upd_apply]; split
  · subst_vars; omega
  · exact Nat.le_refl _

theorem credits_ge {s : TokenManager.State} {k : Addr} {w t : Acct} {a : Nat} {bal' avt'} (h : TokenManager.Credits s k w a bal' avt') :
    (∀ k, s.bal k t ≤ bal' k t) ∧ s.avt t ≤ avt' t := by
  rcases h with ⟨-, rfl, rfl, -⟩ | ⟨-, rfl, rfl, -⟩
  · exact ⟨fun _ => Nat.le_refl _, upd_add_ge⟩
  · refine ⟨fun k' => ?_, Nat.le_refl _⟩
    by_cases e : k' = k
    · subst e; rw [upd_same]; exact upd_add_ge
    · rw [upd_ne _ _ e]

theorem burns_ge {env : TokenManager.Env} {s : TokenManager.State} {k : Addr} {f t : Acct} {a : Nat} {bal' avt'}
    (h : TokenManager.Burns env s k f a bal' avt') (hf : f ≠ t) : (∀ k, s.bal k t ≤ bal' k t) ∧ s.avt t ≤ avt' t := by
  rcases h with ⟨-, rfl, rfl, -, -, -⟩ | ⟨-, rfl, rfl, -⟩
  · refine ⟨fun _ => Nat.le_refl _, ?_⟩
    rw [upd_ne _ _ (Ne.symm hf)]
  · refine ⟨fun k' => ?_, Nat.le_refl _⟩
    by_cases e : k' = k
    · subst e; rw [upd_same, upd_ne _ _ (Ne.symm hf)]
    · rw [upd_ne _ _ e]

theorem tokens_untouched (t : Acct) (s : TokenManager.State) (x : TokenManager.Env × TokenManager.Step) (hn : ∀ i c, s.scheduled i = some c → c.sender ≠ t)
    (hq : Untouched t s x) (hx : ∀ l, tokens.rootCall x = some l → l ∉ privileged ∧ l ≠ .executeLower t) : Keeps t s (tokens.step s x) := by
  obtain ⟨env, st⟩ := x
  obtain ⟨q1, q2, q3⟩ := hq
  dsimp only at q1 q2 q3
  show Keeps t s (TokenManager.step env s st).1
  have hv := TokenManager.step_view env s st
  have put : ∀ (i : Nat) (o : Option TokenManager.LowerCall), (∀ c, o = some c → c.sender ≠ t) →
      ∀ j c, upd s.scheduled i o j = some c → c.sender ≠ t := by
    intro i o ho j c hj
    rw [upd_apply] at hj
    split at hj
    · exact ho c hj
    · exact hn j c hj
  generalize TokenManager.step env s st = r at hv
  cases hv with
  | transfer st p f d k a bal' avt' hi hsig hm =>
    have hf : f ≠ t := by
      rcases hi with rfl | ⟨hp, -⟩
      · exact q3
      · intro e; rw [q1 p _ (hp.trans e)] at hsig; cases hsig
    obtain ⟨h1, h2⟩ := moves_ge hm hf
    exact ⟨h1, h2, hn⟩
  | fee k a f d bal' avt' hm => obtain ⟨h1, h2⟩ := moves_ge hm q3; exact ⟨h1, h2, hn⟩
  | feeTreasury a f bal' avt' hm => obtain ⟨h1, h2⟩ := moves_ge hm q3; exact ⟨h1, h2, hn⟩
  | treasury r a avt' _ _ => exact absurd (by decide) (hx .transferFromTreasury rfl).1
  | direct f k a t1 _ _ _ =>
    exact ⟨fun _ => Nat.le_refl _, Nat.le_refl _, put _ _ (by intro c hc; cases hc; exact q3)⟩
  | signedLower st p f k a t1 hi _ _ _ hsig =>
    have hf : f ≠ t := by
      rcases hi with rfl | ⟨hp, -⟩
      · exact q3
      · intro e; rw [q1 p _ (hp.trans e)] at hsig; cases hsig
    exact ⟨fun _ => Nat.le_refl _, Nat.le_refl _, put _ _ (by intro c hc; cases hc; exact hf)⟩
  | rootLower c i bal' avt' _ hb =>
    have hf : c.sender ≠ t := by
      intro e
      exact (hx (.executeLower c.sender) rfl).2 (by rw [e])
    obtain ⟨h1, h2⟩ := burns_ge hb hf
    exact ⟨h1, h2, hn⟩
  | schedLower c i bal' avt' hc _ hb =>
    obtain ⟨h1, h2⟩ := burns_ge hb (hn i c hc)
    exact ⟨h1, h2, put _ _ (by intro c hc; cases hc)⟩
  | schedFail c i e _ => exact ⟨fun _ => Nat.le_refl _, Nat.le_refl _, put _ _ (by intro c hc; cases hc)⟩
  | setPeriod n => exact ⟨fun _ => Nat.le_refl _, Nat.le_refl _, hn⟩
  | toggle e => exact ⟨fun _ => Nat.le_refl _, Nat.le_refl _, hn⟩
  | setNative a => exact ⟨fun _ => Nat.le_refl _, Nat.le_refl _, hn⟩
  | cancel i => exact ⟨fun _ => Nat.le_refl _, Nat.le_refl _, put _ _ (by intro c hc; cases hc)⟩
  | lift k w a bal' avt' _ _ hc => obtain ⟨h1, h2⟩ := credits_ge (t := t) hc; exact ⟨h1, h2, hn⟩
  | ifaceLift k w a bal' avt' _ _ hc => obtain ⟨h1, h2⟩ := credits_ge (t := t) hc; exact ⟨h1, h2, hn⟩
  | deposit k w a _ =>
    refine ⟨fun k' => ?_, Nat.le_refl _, hn⟩
    show _ ≤ upd s.bal k _ k' t
    by_cases e : k' = k
    · subst e; rw [upd_same]; exact upd_add_ge
    · rw [upd_ne _ _ e]
  | growth a p avt' ok _ _ _ _ hg =>
    refine ⟨fun _ => Nat.le_refl _, ?_, hn⟩
    show s.avt t ≤ avt' t
    have h1 := q2 (a - perbillMul env.growthPct a) p (upd s.avt env.treasury (s.avt env.treasury + perbillMul env.growthPct a))
    rw [hg] at h1
    exact Nat.le_trans upd_add_ge h1
  | revert k w a i ps bal' avt' _ _ _ hc => obtain ⟨h1, h2⟩ := credits_ge (t := t) hc; exact ⟨h1, h2, hn⟩
  | external avt' => exact ⟨fun _ => Nat.le_refl _, q3, hn⟩
  | _ => exact ⟨fun _ => Nat.le_refl _, Nat.le_refl _, hn⟩

end Verif.Governed
