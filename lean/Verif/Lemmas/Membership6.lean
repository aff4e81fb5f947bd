import Verif.Lemmas.Membership5

/-! # Membership: registrations -/

namespace Verif.Membership

open Verif.Staking (EPar St Full EOp CRec Core Inv Eligible BestChoice)

/-- When staking takes a new candidate. -/
theorem join_iff {P : Staking.Par} {s : St} (h : Inv P s) (a bond : Nat) (reg : Bool) :
    (Staking.joinCandidates P s a bond s.pool.length reg).isSome = true ↔
      s.cands a = none ∧ s.noms a = none ∧ s.minCollator ≤ bond ∧ reg = true ∧ s.pool.length < P.cfg.maxPool ∧ bond ≤ s.free a := by
  unfold Staking.joinCandidates
  by_cases hc : (s.cands a).isSome ∨ (s.noms a).isSome ∨ bond < s.minCollator ∨ reg = false ∨ s.pool.length < s.pool.length
  · rw [if_pos hc]
    constructor
    · intro e; cases e
    · rintro ⟨h1, h2, h3, h4, _⟩
      rw [h1, h2, h4] at hc
      rcases hc with e | e | e | e | e
      · cases e
      · cases e
      · omega
      · cases e
      · omega
  · rw [if_neg hc]
    push Not at hc
    obtain ⟨c1, c2, c3, c4, _⟩ := hc
    have c1 : s.cands a = none := by
      cases e : s.cands a with
      | none => rfl
      | some r => rw [e] at c1; exact absurd rfl c1
    have c2 : s.noms a = none := by
      cases e : s.noms a with
      | none => rfl
      | some r => rw [e] at c2; exact absurd rfl c2
    have c4 : reg = true := by cases reg with | true => rfl | false => exact absurd rfl c4
    have hfree : s.candFree a = s.free a := by unfold Staking.St.candFree; rw [c1]; rfl
    rcases Staking.setInsert_cases h.g.c.sorted P.cfg.maxPool ⟨a, bond⟩ with ⟨⟨x, hx, e⟩, _⟩ | ⟨u, v, _, _, _, e⟩
    · have e : x.owner = a := e
      have := h.g.c.dom x hx
      rw [e, c1] at this
      cases this
    · rw [e]
      by_cases hl : s.pool.length < P.cfg.maxPool
      · rw [if_pos hl]
        dsimp only
        rw [hfree]
        by_cases hf : s.free a < bond
        · rw [if_pos hf]
          constructor
          · intro q; cases q
          · rintro ⟨_, _, _, _, _, q⟩; omega
        · rw [if_neg hf]
          exact ⟨fun _ => ⟨c1, c2, by omega, c4, hl, by omega⟩, fun _ => rfl⟩
      · rw [if_neg hl]
        constructor
        · intro q; cases q
        · rintro ⟨_, _, _, _, q, _⟩; exact absurd q hl

/-- A waiting registration was waiting before the step, with the same deposit, or was requested by it. -/
theorem view_deposit {minV : Nat} {p : Option Validators.Entry} {vm vm' : Validators.State} {x : Validators.Step}
    (hi : Validators.Inv minV p vm) (hv : Validators.View minV p vm x vm') {e : Validators.Entry} (he : e ∈ vm'.actions)
    (hs : e.status = .awaiting) (hk : e.kind = .registration) :
    (e ∈ vm.actions ∧ vm'.deposits e.account = vm.deposits e.account) ∨
      ∃ k d b1 b2 b3 b4, x = .add e.account k d b1 b2 b3 b4 ∧ vm'.deposits e.account = some d := by
  have none_waits : Validators.hasActive vm = false → e ∉ vm.actions := by
    intro h4 hm
    have := hi.none_of_inactive h4
    rw [(hi.pend e).1 ⟨hm, hs⟩] at this
    cases this
  cases hv with
  | same => exact Or.inl ⟨he, rfl⟩
  | other _ => exact Or.inl ⟨he, rfl⟩
  | requested a k d hx h1 h2 h3 h4 =>
    obtain ⟨b1, b2, b3, b4, hx⟩ := hx
    rcases List.mem_cons.1 he with q | q
    · subst q
      exact Or.inr ⟨k, d, b1, b2, b3, b4, hx, upd_same _ _ _⟩
    · exact absurd (Validators.mem_dropAction.1 q).1 (none_waits h4)
  | resigned a k hx h1 h2 h3 h4 =>
    rcases List.mem_cons.1 he with q | q
    · subst q; cases hk
    · exact absurd (Validators.mem_dropAction.1 q).1 (none_waits h4)
  | rotated a old new hx h1 h2 h3 => exact Or.inl ⟨he, rfl⟩
  | failReg e' k hx hp hk' h =>
    obtain ⟨q1, q2⟩ := Validators.mem_dropAction.1 he
    have := (hi.pend e).1 ⟨q1, hs⟩
    rw [hp] at this; injection this with this; subst this
    exact absurd rfl q2
  | failRes e' hx hp hk' =>
    obtain ⟨q1, q2⟩ := Validators.mem_dropAction.1 he
    exact Or.inl ⟨q1, rfl⟩
  | joined e' hx hp hk' =>
    have he : e ∈ Validators.setAction vm.actions e'.account e'.ingress .actioned .activation := he
    simp only [Validators.setAction, List.mem_map] at he
    obtain ⟨y, hy, rfl⟩ := he
    by_cases hc : (y.account == e'.account && y.ingress == e'.ingress) = true
    · rw [if_pos hc] at hs; cases hs
    · rw [if_neg hc] at hs
      have := (hi.pend y).1 ⟨hy, hs⟩
      rw [hp] at this; injection this with this; subst this
      simp at hc
  | left e' k hx hp hk' h =>
    have he : e ∈ vm.actions.map fun e => if e.account == e'.account && e.ingress == e'.ingress then { e with status := .actioned } else e := he
    obtain ⟨y, hy, rfl⟩ := List.mem_map.1 he
    by_cases hc : (y.account == e'.account && y.ingress == e'.ingress) = true
    · rw [if_pos hc] at hs; cases hs
    · rw [if_neg hc] at hs
      have := (hi.pend y).1 ⟨hy, hs⟩
      rw [hp] at this; injection this with this; subst this
      simp at hc
  | session s' hx h => exact Or.inl ⟨(h.aw e hs).1 he, by rw [h.eq]⟩

/-- The same for a step of the chain. -/
theorem step_deposit {E : EPar} (hE : E.Sane) {minV : Nat} {c : Chain} (h : MInv E minV c) (x : Step) {e : Validators.Entry}
    (he : e ∈ (step E minV c x).vm.actions) (hs : e.status = .awaiting) (hk : e.kind = .registration) :
    (e ∈ c.vm.actions ∧ (step E minV c x).vm.deposits e.account = c.vm.deposits e.account) ∨
      ∃ k d ko bo, x = .addCollator e.account k d ko bo ∧
        (step E minV c x).vm.deposits e.account = some (d.getD c.stk.led.minCollator) := by
  obtain ⟨⟨p, hv⟩, hc, ha⟩ := h
  have plain : ∀ y : Validators.Step, (∀ a k d b1 b2 b3 b4, y ≠ .add a k d b1 b2 b3 b4) →
      e ∈ (Validators.step minV c.vm y).actions →
      (e ∈ c.vm.actions ∧ (Validators.step minV c.vm y).deposits e.account = c.vm.deposits e.account) := by
    intro y hy hm
    rcases view_deposit hv (Validators.step_view hv y) hm hs hk with q | ⟨k, d, b1, b2, b3, b4, q, _⟩
    · exact q
    · exact absurd q (hy _ _ _ _ _ _ _)
  cases x with
  | block pub now author pick visit =>
    obtain ⟨c', h1, h2⟩ := block_ok (pub := pub) hE hv hc now author pick visit
    have e1 : step E minV c (.block pub now author pick visit) = c' := by
      show (block E c pub now author pick visit).getD c = c'
      rw [h1]; rfl
    rw [e1] at he ⊢
    left
    rcases h2 with ⟨_, _, h2⟩ | ⟨_, S, era, h2⟩
    · have e2 : c'.vm = c.vm := by rw [h2.rest]
      rw [e2] at he ⊢; exact ⟨he, rfl⟩
    · exact ⟨(h2.vm.aw e hs).1 he, by rw [h2.vm.eq]⟩
  | staking op =>
    left
    have e1 : (step E minV c (.staking op)).vm = c.vm := by
      show (if userCall op then { c with stk := Staking.eStep E c.stk op } else c).vm = c.vm
      by_cases hu : userCall op = true
      · rw [if_pos hu]
      · rw [if_neg hu]
    rw [e1] at he ⊢; exact ⟨he, rfl⟩
  | addCollator a k d ko bo =>
    rcases view_deposit hv (Validators.addCollator_view minV p c.vm a k (d.getD c.stk.led.minCollator) (c.keys a).isSome
      (stakingReady c.stk.led a (d.getD c.stk.led.minCollator)) ko bo) he hs hk with q | ⟨k', d', b1, b2, b3, b4, q, r⟩
    · exact Or.inl q
    · injection q with q1 q2 q3
      subst q1; subst q2; subst q3
      exact Or.inr ⟨_, d, ko, bo, rfl, r⟩
  | removeValidator a ko bo => exact Or.inl (plain _ (fun _ _ _ _ _ _ _ q => by cases q) he)
  | rotateEthKey a old new => exact Or.inl (plain _ (fun _ _ _ _ _ _ _ q => by cases q) he)
  | otherPublish => exact Or.inl (plain _ (fun _ _ _ _ _ _ _ q => by cases q) he)
  | bridgeResult tx mine ok =>
    have hw := bridgeResult_view E hv tx mine ok
    obtain ⟨y, hy⟩ := hw.vm' (minV := minV)
    rcases view_deposit hv hy.1 he hs hk with q | ⟨k, d, b1, b2, b3, b4, q, _⟩
    · exact Or.inl q
    · exact absurd q (hy.2 _ _ _ _ _ _ _)
  | bridgeDropped tx mine => exact Or.inl (plain _ (fun _ _ _ _ _ _ _ q => by cases q) he)
  | setKeys a k =>
    left
    have e1 : (setKeys c a k).vm = c.vm := by
      unfold setKeys
      by_cases hk : c.owner k = none ∨ c.owner k = some a
      · rw [if_pos hk]
      · rw [if_neg hk]
    have he : e ∈ (setKeys c a k).vm.actions := he
    show e ∈ c.vm.actions ∧ (setKeys c a k).vm.deposits e.account = _
    rw [e1] at he ⊢; exact ⟨he, rfl⟩
  | purgeKeys a =>
    left
    have e1 : (purgeKeys c a).vm = c.vm := by
      unfold purgeKeys
      cases c.keys a <;> rfl
    have he : e ∈ (purgeKeys c a).vm.actions := he
    show e ∈ c.vm.actions ∧ (purgeKeys c a).vm.deposits e.account = _
    rw [e1] at he ⊢; exact ⟨he, rfl⟩

end Verif.Membership
