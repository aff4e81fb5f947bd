import Verif.Lemmas.Membership3

/-! # Membership: histories -/

namespace Verif.Membership

open Verif.Staking (EPar St Full EOp CRec Core Inv Eligible BestChoice)

/-- The invariant of all histories. -/
structure MInv (E : EPar) (minV : Nat) (c : Chain) : Prop where
  vm : ∃ p, Validators.Inv minV p c.vm
  core : Core E c.stk
  agree : Agree c.vm (standing c.stk.led)

theorem addCollator_unready (s : Validators.State) (a k d : Nat) (sk ko bo : Bool) :
    Validators.commit s (Validators.addCollator s a k d sk false ko bo) = s := by
  unfold Validators.addCollator
  repeat' (split; · rfl)
  rename_i h _ _
  exact (h rfl).elim

/-- A change of the validator list that is neither a confirmed change nor a session keeps the agreement. -/
theorem view_agree {minV : Nat} {p : Option Validators.Entry} {vm vm' : Validators.State} {x : Validators.Step} {st : Nat → Standing}
    (hi : Validators.Inv minV p vm) (ag : Agree vm st) (hv : Validators.View minV p vm x vm')
    (hreq : ∀ a k d b1 b2 b3 b4, x = .add a k d b1 b2 b3 b4 → st a = .out) (hb : ∀ t, x ≠ .bridgeResult t true true true)
    (hs : ∀ act dis ex vis, x ≠ .session act dis ex vis) : Agree vm' st := by
  cases hv with
  | same => exact ag
  | other _ => exact ag.frame (fun _ => Iff.rfl) (fun _ => Iff.rfl) ag.wait
  | requested a k d hx h1 h2 h3 h4 =>
    obtain ⟨b1, b2, b3, b4, hx⟩ := hx
    exact ag.record hi.ing a .registration (fun _ => hreq a k d b1 b2 b3 b4 hx) _ _ _
  | resigned a k hx h1 h2 h3 h4 => exact ag.record hi.ing a .resignation (fun h => by cases h) vm.deposits vm.keys vm.rev
  | rotated a old new hx h1 h2 h3 => exact ag.frame (fun _ => Iff.rfl) (fun _ => Iff.rfl) ag.wait
  | failReg e k hx hp hk h => subst hp; exact ag.dropPending hi rfl rfl
  | failRes e hx hp hk => subst hp; exact ag.dropPending hi rfl rfl
  | joined e hx hp hk => exact absurd hx (hb e.tx)
  | left e k hx hp hk h => exact absurd hx (hb e.tx)
  | session s' hx h => obtain ⟨a, b, d, f, hx⟩ := hx; exact absurd hx (hs a b d f)

theorem sameButDone_inv {minV : Nat} {p : Option Validators.Entry} {vm vm' : Validators.State} (hi : Validators.Inv minV p vm)
    (h : Validators.SameButDone vm vm') : ∃ p', Validators.Inv minV p' vm' :=
  hi.next (x := .session [] [] (fun _ => false) []) (.session vm' ⟨_, _, _, _, rfl⟩ h)

/-- The ledger after a change of standing keeps the core invariant. -/
theorem core_led {E : EPar} {F : Full} {s : St} (h : Core E F) (hi : Inv E.par s) (hp : Staking.SameP F.led s) : Core E { F with led := s } := by
  refine ⟨hi, ?_, h.len, ?_, ?_⟩
  · show 1 ≤ s.era; rw [hp.era]; exact h.era
  · show ∀ c ∈ F.selected, c ∈ (F.atStake s.era).map Prod.fst; rw [hp.era]; exact h.sel
  · show F.locked ≤ s.free E.pot - E.ed; rw [hp.free]; exact h.pot

theorem ResultView.core {E : EPar} (hE : E.Sane) {p : Option Validators.Entry} {c c' : Chain} {tx : Nat} {mine ok : Bool}
    (hs : Core E c.stk) (h : ResultView E p c tx mine ok c') : Core E c'.stk := by
  cases h with
  | ignored _ => exact hs
  | refused _ _ _ _ _ _ => exact hs
  | failReg e k hp ht hm ho hk hr => exact hs
  | failRes e hp ht hm ho hk => exact hs
  | joined e s' hp ht hm ho hk hj =>
    have hc : Staking.call E.par c.stk.led (.join e.account (depositOf c e.account) c.stk.led.pool.length (c.keys e.account).isSome) = some s' := hj
    exact core_led hs (Staking.call_ok hE.par.ok hE.par.per.1 hs.led hc).inv (join_standing hE.par.ok hs.led hj).2.2
  | left e k s' hp ht hm ho hk hr hj =>
    have hc : Staking.call E.par c.stk.led (.scheduleLeave e.account c.stk.led.pool.length) = some s' := hj
    exact core_led hs (Staking.call_ok hE.par.ok hE.par.per.1 hs.led hc).inv (scheduleLeave_standing hs.led hj).2.2.2

theorem standing_cands {s s' : St} (h : s'.cands = s.cands) : ∀ a, standing s' a = standing s a := fun a => standing_congr (by rw [h])

theorem bridgeDropped_view {minV : Nat} {p : Option Validators.Entry} {vm : Validators.State} (hi : Validators.Inv minV p vm) (tx : Nat) (mine : Bool) :
    Validators.View minV p vm (.bridgeDropped tx mine) (Validators.step minV vm (.bridgeDropped tx mine)) := Validators.step_view hi _

theorem step_inv {E : EPar} (hE : E.Sane) {minV : Nat} {c : Chain} (h : MInv E minV c) (x : Step) : MInv E minV (step E minV c x) := by
  obtain ⟨⟨p, hv⟩, hc, ha⟩ := h
  have plain : ∀ x : Validators.Step, (∀ a k d b1 b2 b3 b4, x ≠ .add a k d b1 b2 b3 b4) → (∀ t, x ≠ .bridgeResult t true true true) →
      (∀ act dis ex vis, x ≠ .session act dis ex vis) → MInv E minV { c with vm := Validators.step minV c.vm x } := by
    intro x h1 h2 h3
    exact ⟨hv.next (Validators.step_view hv x), hc,
      view_agree hv ha (Validators.step_view hv x) (fun a k d b1 b2 b3 b4 e => absurd e (h1 a k d b1 b2 b3 b4)) h2 h3⟩
  cases x with
  | block pub now author pick visit =>
    obtain ⟨c', h1, h2⟩ := block_ok (pub := pub) hE hv hc now author pick visit
    show MInv E minV ((block E c pub now author pick visit).getD c)
    rw [h1]
    show MInv E minV c'
    rcases h2 with ⟨_, _, h2⟩ | ⟨_, S, era, h2⟩
    · have e : c'.vm = c.vm := by rw [h2.rest]
      exact ⟨⟨p, by rw [e]; exact hv⟩, h2.core, by rw [e]; exact ha.stand (standing_cands h2.cands)⟩
    · exact ⟨sameButDone_inv hv h2.vm, h2.core, h2.agree ha⟩
  | staking op =>
    show MInv E minV (if userCall op then { c with stk := Staking.eStep E c.stk op } else c)
    by_cases hu : userCall op = true
    · rw [if_pos hu]
      exact ⟨⟨p, hv⟩, Staking.eStep_core hE.par.ok hE.par.per.1 hE.delay hE.blocks hc op, ha.stand (user_quiet hE hc hu).1.stand⟩
    · rw [if_neg hu]; exact ⟨⟨p, hv⟩, hc, ha⟩
  | addCollator a k d ko bo =>
    show MInv E minV (addCollator c a k d ko bo)
    unfold addCollator
    dsimp only
    cases hr : stakingReady c.stk.led a (d.getD c.stk.led.minCollator) with
    | false =>
      rw [addCollator_unready]
      exact ⟨⟨p, hv⟩, hc, ha⟩
    | true =>
      have hvw := Validators.addCollator_view minV p c.vm a k (d.getD c.stk.led.minCollator) (c.keys a).isSome true ko bo
      refine ⟨hv.next hvw, hc, view_agree hv ha hvw ?_ (fun t e => by cases e) (fun _ _ _ _ e => by cases e)⟩
      intro a' k' d' b1 b2 b3 b4 e
      injection e with e
      subst e
      unfold stakingReady at hr
      have := of_decide_eq_true hr
      exact standing_out.2 (by simpa using this.1)
  | removeValidator a ko bo => exact plain _ (fun _ _ _ _ _ _ _ e => by cases e) (fun _ e => by cases e) (fun _ _ _ _ e => by cases e)
  | rotateEthKey a old new => exact plain _ (fun _ _ _ _ _ _ _ e => by cases e) (fun _ e => by cases e) (fun _ _ _ _ e => by cases e)
  | otherPublish => exact plain _ (fun _ _ _ _ _ _ _ e => by cases e) (fun _ e => by cases e) (fun _ _ _ _ e => by cases e)
  | bridgeResult tx mine ok =>
    have hw := bridgeResult_view E hv tx mine ok
    obtain ⟨x, hx⟩ := hw.vm (minV := minV)
    exact ⟨hv.next hx, hw.core hE hc, hw.agree hE hv hc.led ha⟩
  | bridgeDropped tx mine => exact plain _ (fun _ _ _ _ _ _ _ e => by cases e) (fun _ e => by cases e) (fun _ _ _ _ e => by cases e)
  | setKeys a k =>
    show MInv E minV (setKeys c a k)
    unfold setKeys
    by_cases hk : c.owner k = none ∨ c.owner k = some a
    · rw [if_pos hk]; exact ⟨⟨p, hv⟩, hc, ha⟩
    · rw [if_neg hk]; exact ⟨⟨p, hv⟩, hc, ha⟩
  | purgeKeys a =>
    show MInv E minV (purgeKeys c a)
    unfold purgeKeys
    cases c.keys a with
    | none => exact ⟨⟨p, hv⟩, hc, ha⟩
    | some old => exact ⟨⟨p, hv⟩, hc, ha⟩

theorem run_snoc (E : EPar) (minV : Nat) (c : Chain) (xs : List Step) (x : Step) :
    run E minV c (xs ++ [x]) = step E minV (run E minV c xs) x := by
  simp [run, List.foldl_append]

theorem run_cons (E : EPar) (minV : Nat) (c : Chain) (x : Step) (xs : List Step) :
    run E minV c (x :: xs) = run E minV (step E minV c x) xs := rfl

theorem run_append (E : EPar) (minV : Nat) (c : Chain) (xs ys : List Step) :
    run E minV c (xs ++ ys) = run E minV (run E minV c xs) ys := by
  simp [run, List.foldl_append]

theorem run_minv {E : EPar} (hE : E.Sane) {minV : Nat} {c : Chain} (h : MInv E minV c) (xs : List Step) : MInv E minV (run E minV c xs) := by
  induction xs generalizing c with
  | nil => exact h
  | cons x xs ih => exact ih (step_inv hE h x)

end Verif.Membership
