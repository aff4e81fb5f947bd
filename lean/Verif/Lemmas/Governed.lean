import Verif.Model.Governed
import Verif.Props.Authority
import Verif.Lemmas.Membership5

/-! # The pallets under the dispatcher: lemmas -/

namespace Verif.Governed

open Verif.Authority (Leaf Origin Env privileged Quiet WithoutPower)

/-- The dispatcher's part of a history is a history of the dispatcher. -/
theorem run_fst (E : Env) (P : Pallet) : ∀ (h : List (Authority.Step × List P.Step)) (c : Authority.Chain × P.State),
    (run E P c h).1 = Authority.run E c.1 (h.map Prod.fst)
  | [], _ => rfl
  | x :: h, c => run_fst E P h (step E P c x)

theorem withoutPower_append {E : Env} : ∀ (h h' : List Authority.Step) (s : Authority.Chain), WithoutPower E s (h ++ h') →
    WithoutPower E s h ∧ WithoutPower E (Authority.run E s h) h'
  | [], _, _, hw => ⟨trivial, hw⟩
  | _ :: h, h', _, hw =>
    have := withoutPower_append h h' _ hw.2.2
    ⟨⟨hw.1, hw.2.1, this.1⟩, this.2⟩

theorem arun_append (E : Env) (s : Authority.Chain) (h h' : List Authority.Step) :
    Authority.run E s (h ++ h') = Authority.run E (Authority.run E s h) h' := by
  unfold Authority.run; rw [List.foldl_append]

/-- The steps the pallet makes in a history without power: none of them is a privileged call of root. -/
theorem run_snd (E : Env) (P : Pallet) (k₀ : Option Acct) : ∀ (h : List (Authority.Step × List P.Step)) (before : List Authority.Step) (s : P.State),
    Quiet (Authority.run E (Authority.genesis k₀) before) → WithoutPower E (Authority.run E (Authority.genesis k₀) before) (h.map Prod.fst) →
    ∃ xs : List P.Step, (run E P (Authority.run E (Authority.genesis k₀) before, s) h).2 = xs.foldl P.step s ∧
      (∀ x ∈ xs, ∀ l, P.rootCall x = some l → l ∉ privileged) ∧ xs.length ≤ (h.map fun y => y.2.length).sum
  | [], _, s, _, _ => ⟨[], rfl, (by intro x h; cases h), Nat.le_refl _⟩
  | (y, ys) :: h, before, s, hq, hw => by
    obtain ⟨w1, w2⟩ := withoutPower_append [y] (h.map Prod.fst) _ hw
    obtain ⟨-, hq', new, e, hn⟩ := Authority.C128_no_authority_without_sudo_or_vote E k₀ before [y] hq w1
    rw [← arun_append] at w2
    obtain ⟨xs, e1, e2, e3⟩ := run_snd E P k₀ h (before ++ [y])
      ((ys.filter (possible P new)).foldl P.step s) hq' w2
    have ec : step E P (Authority.run E (Authority.genesis k₀) before, s) (y, ys) =
        (Authority.run E (Authority.genesis k₀) (before ++ [y]), (ys.filter (possible P new)).foldl P.step s) := by
      have ea : Authority.step E (Authority.run E (Authority.genesis k₀) before) y = Authority.run E (Authority.genesis k₀) (before ++ [y]) := by
        rw [arun_append]; rfl
      unfold step
      dsimp only
      rw [ea, e, List.drop_left]
    refine ⟨ys.filter (possible P new) ++ xs, ?_, ?_, ?_⟩
    · show (run E P (step E P _ (y, ys)) h).2 = _
      rw [ec, e1, List.foldl_append]
    · intro x hx l hl
      rcases List.mem_append.mp hx with hx | hx
      · have hp := (List.mem_filter.mp hx).2
        unfold possible at hp
        rw [hl] at hp
        obtain ⟨q, hq1, hq2⟩ := List.any_eq_true.mp hp
        have := hn q.1 q.2 hq1
        rw [of_decide_eq_true hq2] at this
        exact this.1
      · exact e2 x hx l hl
    · have := List.length_filter_le (possible P new) ys
      simp only [List.length_append, List.map_cons, List.sum_cons]
      omega

/-- An invariant that every step but the privileged calls of root keeps. -/
theorem run_keeps (E : Env) (P : Pallet) (k₀ : Option Acct) (before : List Authority.Step) (h : List (Authority.Step × List P.Step)) (s : P.State)
    (hq : Quiet (Authority.run E (Authority.genesis k₀) before)) (hw : WithoutPower E (Authority.run E (Authority.genesis k₀) before) (h.map Prod.fst))
    (I : P.State → Prop) (h0 : I s) (hs : ∀ t x, I t → (∀ l, P.rootCall x = some l → l ∉ privileged) → I (P.step t x)) :
    I (run E P (Authority.run E (Authority.genesis k₀) before, s) h).2 := by
  obtain ⟨xs, e, hx, -⟩ := run_snd E P k₀ h before s hq hw
  rw [e]
  clear e
  induction xs generalizing s with
  | nil => exact h0
  | cons x xs ih =>
    exact ih (P.step s x) (hs s x h0 (hx x List.mem_cons_self)) (fun y hy => hx y (List.mem_cons_of_mem _ hy))

/-! ### The validators -/

open Verif.Membership (MInv)

/-- Nothing is awaited from Ethereum for the account. -/
def Settled (c : Membership.Chain) (a : Nat) : Prop := ∀ e ∈ c.vm.actions, e.status = .awaiting → e.account ≠ a

/-- What stays of an account. -/
structure SameFor (a : Nat) (c c' : Membership.Chain) : Prop where
  settled : Settled c' a
  val : a ∈ c'.vm.validators ↔ a ∈ c.vm.validators
  rev : c'.vm.rev a = c.vm.rev a

theorem view_same {minV : Nat} {p : Option Validators.Entry} {vm vm' : Validators.State} {x : Validators.Step} (hi : Validators.Inv minV p vm)
    (hv : Validators.View minV p vm x vm') (h1 : ∀ a k d b1 b2 b3 b4, x ≠ .add a k d b1 b2 b3 b4) (h2 : ∀ a b1 b2, x ≠ .remove a b1 b2)
    (h3 : ∀ a o n, x ≠ .rotate a o n) (a : Nat) (hs : ∀ e ∈ vm.actions, e.status = .awaiting → e.account ≠ a) :
    (∀ e ∈ vm'.actions, e.status = .awaiting → e.account ≠ a) ∧ (a ∈ vm'.validators ↔ a ∈ vm.validators) ∧ vm'.rev a = vm.rev a := by
  have hp' : ∀ e, p = some e → e.account ≠ a := fun e hp => hs e ((hi.pend e).mpr hp).1 ((hi.pend e).mpr hp).2
  cases hv with
  | same => exact ⟨hs, Iff.rfl, rfl⟩
  | other _ => exact ⟨hs, Iff.rfl, rfl⟩
  | requested a k d hx _ _ _ _ => obtain ⟨b1, b2, b3, b4, hx⟩ := hx; exact absurd hx (h1 _ _ _ _ _ _ _)
  | resigned a k hx _ _ _ _ => obtain ⟨b1, b2, hx⟩ := hx; exact absurd hx (h2 _ _ _)
  | rotated a o n hx _ _ _ => exact absurd hx (h3 _ _ _)
  | failReg e k hx hp hk h =>
    refine ⟨fun e' he' => hs e' (Validators.mem_dropAction.mp he').1, Iff.rfl, ?_⟩
    exact upd_ne _ _ (Ne.symm (hp' e hp))
  | failRes e hx hp hk => exact ⟨fun e' he' => hs e' (Validators.mem_dropAction.mp he').1, Iff.rfl, rfl⟩
  | joined e hx hp hk =>
    refine ⟨?_, ?_, rfl⟩
    · intro e' he' hst
      simp only [Validators.joined, Validators.setAction, List.mem_map] at he'
      obtain ⟨e0, h0, rfl⟩ := he'
      split at hst
      · cases hst
      · rename_i hc; rw [if_neg hc]; exact hs e0 h0 hst
    · show a ∈ vm.validators ++ [e.account] ↔ _
      rw [List.mem_append, List.mem_singleton]
      exact ⟨fun h => h.resolve_right (Ne.symm (hp' e hp)), Or.inl⟩
  | left e k hx hp hk h =>
    refine ⟨?_, ?_, ?_⟩
    · intro e' he' hst
      simp only [Validators.left, List.mem_map] at he'
      obtain ⟨e0, h0, rfl⟩ := he'
      split at hst
      · cases hst
      · rename_i hc; rw [if_neg hc]; exact hs e0 h0 hst
    · show a ∈ vm.validators.filter (fun v => v != e.account) ↔ _
      rw [List.mem_filter]
      exact ⟨fun h => h.1, fun h => ⟨h, by simpa using Ne.symm (hp' e hp)⟩⟩
    · exact upd_ne _ _ (Ne.symm (hp' e hp))
  | session s' hx h =>
    refine ⟨fun e he hst => hs e ((h.aw e hst).mp he) hst, ?_, ?_⟩
    · rw [h.eq]
    · rw [h.eq]

theorem step_same {E : Staking.EPar} (hE : E.Sane) {minV : Nat} {c : Membership.Chain} (h : MInv E minV c) (x : Membership.Step)
    (hx : ∀ l, (membership E minV).rootCall x = some l → l ∉ privileged) (a : Nat) (hs : Settled c a) :
    SameFor a c (Membership.step E minV c x) := by
  obtain ⟨⟨p, hv⟩, hc, ha⟩ := h
  have plain : ∀ x : Validators.Step, (∀ a k d b1 b2 b3 b4, x ≠ .add a k d b1 b2 b3 b4) → (∀ a b1 b2, x ≠ .remove a b1 b2) →
      (∀ a o n, x ≠ .rotate a o n) → SameFor a c { c with vm := Validators.step minV c.vm x } := by
    intro x h1 h2 h3
    obtain ⟨q1, q2, q3⟩ := view_same hv (Validators.step_view hv x) h1 h2 h3 a hs
    exact ⟨q1, q2, q3⟩
  have keep : ∀ c' : Membership.Chain, c'.vm = c.vm → SameFor a c c' := by
    intro c' e
    exact ⟨by unfold Settled; rw [e]; exact hs, by rw [e], by rw [e]⟩
  cases x with
  | block pub now author pick visit =>
    obtain ⟨c', h1, h2⟩ := Membership.block_ok (pub := pub) hE hv hc now author pick visit
    show SameFor a c ((Membership.block E c pub now author pick visit).getD c)
    rw [h1]
    show SameFor a c c'
    rcases h2 with ⟨_, _, h2⟩ | ⟨_, S, era, h2⟩
    · exact keep _ (by rw [h2.rest])
    · obtain ⟨q1, q2, q3⟩ := view_same hv (x := .session [] [] (fun _ => false) []) (.session c'.vm ⟨_, _, _, _, rfl⟩ h2.vm)
        (by simp) (by simp) (by simp) a hs
      exact ⟨q1, q2, q3⟩
  | staking op =>
    show SameFor a c (if Membership.userCall op then { c with stk := Staking.eStep E c.stk op } else c)
    by_cases hu : Membership.userCall op = true
    · rw [if_pos hu]; exact keep _ rfl
    · rw [if_neg hu]; exact keep _ rfl
  | addCollator a k d ko bo => exact absurd (by decide) (hx .addCollator rfl)
  | removeValidator a ko bo => exact absurd (by decide) (hx .removeValidator rfl)
  | rotateEthKey a old new => exact absurd (by decide) (hx .rotateValidatorEthereumKey rfl)
  | otherPublish => exact plain _ (by simp) (by simp) (by simp)
  | bridgeResult tx mine ok =>
    have hw := Membership.bridgeResult_view E hv tx mine ok
    show SameFor a c (Membership.bridgeResult E c tx mine ok)
    have key : ∃ x, Validators.View minV p c.vm x (Membership.bridgeResult E c tx mine ok).vm ∧
        (∀ a k d b1 b2 b3 b4, x ≠ .add a k d b1 b2 b3 b4) ∧ (∀ a b1 b2, x ≠ .remove a b1 b2) ∧ (∀ a o n, x ≠ .rotate a o n) := by
      generalize Membership.bridgeResult E c tx mine ok = c' at hw
      cases hw with
      | ignored _ => exact ⟨.otherPublish, .same, by simp, by simp, by simp⟩
      | refused _ _ _ _ _ _ => exact ⟨.otherPublish, .same, by simp, by simp, by simp⟩
      | failReg e k hp ht hm ho hk hr => subst ht; exact ⟨.bridgeDropped e.tx true, .failReg e k (Or.inr rfl) hp hk hr, by simp, by simp, by simp⟩
      | failRes e hp ht hm ho hk => subst ht; exact ⟨.bridgeDropped e.tx true, .failRes e (Or.inr rfl) hp hk, by simp, by simp, by simp⟩
      | joined e s' hp ht hm ho hk hj => subst ht; exact ⟨.bridgeResult e.tx true true true, .joined e rfl hp hk, by simp, by simp, by simp⟩
      | left e k s' hp ht hm ho hk hr hj =>
        subst ht; exact ⟨.bridgeResult e.tx true true true, .left e k rfl hp hk hr, by simp, by simp, by simp⟩
    obtain ⟨x, q, h1, h2, h3⟩ := key
    obtain ⟨q1, q2, q3⟩ := view_same hv q h1 h2 h3 a hs
    exact ⟨q1, q2, q3⟩
  | bridgeDropped tx mine => exact plain _ (by simp) (by simp) (by simp)
  | setKeys b k =>
    refine keep _ ?_
    show (Membership.setKeys c b k).vm = _
    unfold Membership.setKeys
    split <;> rfl
  | purgeKeys b =>
    refine keep _ ?_
    show (Membership.purgeKeys c b).vm = _
    unfold Membership.purgeKeys
    split <;> rfl

end Verif.Governed
