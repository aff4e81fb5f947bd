import Verif.Props.MembershipSession

/-! # C112: registrations -/

namespace Verif.Membership

open Verif.Staking (EPar St Full EOp CRec Core Inv Eligible BestChoice)

/-- C112: while a registration waits for Ethereum, the deposit kept for it is the one requested (the minimum at that time, if none
was given). -/
theorem C112_deposit_is_the_requested (E : EPar) (hE : E.Sane) (minV : Nat) (vs : List (Nat × Nat)) (F : Full) (sk : List (Nat × Nat))
    (hst : Start E minV vs F sk) (steps : List Step) (e : Validators.Entry)
    (he : e ∈ (run E minV (genesis vs F sk) steps).vm.actions) (hs : e.status = .awaiting) (hk : e.kind = .registration) :
    ∃ before after k d ko bo, steps = before ++ Step.addCollator e.account k d ko bo :: after ∧
      (run E minV (genesis vs F sk) steps).vm.deposits e.account =
        some (d.getD (run E minV (genesis vs F sk) before).stk.led.minCollator) := by
  induction steps using List.reverseRecOn with
  | nil => cases he
  | append_singleton xs x ih =>
    have hm := run_minv hE (hst.inv hE) xs
    rw [run_snoc] at he ⊢
    rcases step_deposit hE hm x he hs hk with ⟨q1, q2⟩ | ⟨k, d, ko, bo, q1, q2⟩
    · obtain ⟨b, a, k, d, ko, bo, h1, h2⟩ := ih q1
      exact ⟨b, a ++ [x], k, d, ko, bo, by rw [h1]; simp, by rw [q2]; exact h2⟩
    · exact ⟨xs, [], k, d, ko, bo, by rw [q1], q2⟩

/-- What is still needed when Ethereum confirms a registration with deposit `d`. -/
structure Ready (E : EPar) (c : Chain) (a d : Nat) : Prop where
  notNominator : c.stk.led.noms a = none
  enough : c.stk.led.minCollator ≤ d
  hasKeys : c.keys a ≠ none
  room : c.stk.led.pool.length < E.par.cfg.maxPool
  funds : d ≤ c.stk.led.free a

theorem registration_result {E : EPar} (hE : E.Sane) {minV : Nat} {c : Chain} (hc : Reach E minV c) {e : Validators.Entry}
    (he : e ∈ c.vm.actions) (hs : e.status = .awaiting) (hk : e.kind = .registration) :
    (joinOf E c e.account = none ∧ step E minV c (.bridgeResult e.tx true true) = c) ∨
    (∃ s', joinOf E c e.account = some s' ∧
      step E minV c (.bridgeResult e.tx true true) = { c with vm := Validators.joined c.vm e.tx e.account e.ingress }.withLed s') := by
  obtain ⟨⟨p, hv⟩, hcore, ag⟩ := hc.inv hE
  have hp := (hv.pend e).1 ⟨he, hs⟩
  have hw : ResultView E p c e.tx true true (step E minV c (.bridgeResult e.tx true true)) := bridgeResult_view E hv e.tx true true
  generalize step E minV c (.bridgeResult e.tx true true) = c' at hw ⊢
  generalize htx : e.tx = tx at hw
  generalize hok : true = ok at hw
  cases hw with
  | ignored why =>
    exfalso
    rcases why with q | q
    · rw [← hok] at q; cases q
    · rw [hv.tx tx, hp] at q
      have : (if tx = e.tx then some (e.account, e.ingress) else none) = none := q
      rw [if_pos htx.symm] at this
      cases this
  | refused e' hp' ht hm ho why =>
    rw [hp] at hp'; injection hp' with hp'; subst hp'
    rcases why with ⟨_, q⟩ | ⟨q, _⟩
    · exact Or.inl ⟨q, rfl⟩
    · rw [hk] at q; cases q
  | failReg e' k hp' ht hm ho hk' hr => rw [← hok] at ho; cases ho
  | failRes e' hp' ht hm ho hk' => rw [← hok] at ho; cases ho
  | joined e' s' hp' ht hm ho hk' hj =>
    rw [hp] at hp'; injection hp' with hp'; subst hp'
    exact Or.inr ⟨s', hj, rfl⟩
  | left e' k s' hp' ht hm ho hk' hr hj =>
    rw [hp] at hp'; injection hp' with hp'; subst hp'; rw [hk] at hk'; cases hk'

theorem ready_iff {E : EPar} (hE : E.Sane) {minV : Nat} {c : Chain} (hc : Reach E minV c) {e : Validators.Entry}
    (he : e ∈ c.vm.actions) (hs : e.status = .awaiting) (hk : e.kind = .registration) {d : Nat} (hd : c.vm.deposits e.account = some d) :
    (joinOf E c e.account).isSome = true ↔ Ready E c e.account d := by
  obtain ⟨⟨p, hv⟩, hcore, ag⟩ := hc.inv hE
  have hnone : c.stk.led.cands e.account = none := standing_out.1 (ag.wait e he hs hk)
  have hdep : depositOf c e.account = d := by unfold depositOf; rw [hd]; rfl
  unfold joinOf
  rw [join_iff hcore.led, hdep]
  constructor
  · rintro ⟨_, h1, h2, h3, h4, h5⟩
    exact ⟨h1, h2, Option.isSome_iff_ne_none.1 h3, h4, h5⟩
  · rintro ⟨h1, h2, h3, h4, h5⟩
    exact ⟨hnone, h1, h2, Option.isSome_iff_ne_none.2 h3, h4, h5⟩

/-- C112 (partial: the result may be refused, see the next theorem): when Ethereum confirms a registration and the account is still ready,
it becomes a validator and an active staking candidate with exactly the deposit bonded and locked; nobody else is affected. -/
theorem C112_confirmed_registration_joins_partial (E : EPar) (hE : E.Sane) (minV : Nat) (c : Chain) (hc : Reach E minV c)
    (e : Validators.Entry) (he : e ∈ c.vm.actions) (hs : e.status = .awaiting) (hk : e.kind = .registration) (d : Nat)
    (hd : c.vm.deposits e.account = some d) (hr : Ready E c e.account d) (c' : Chain)
    (h : c' = step E minV c (.bridgeResult e.tx true true)) :
    e.account ∉ c.vm.validators ∧ c'.vm.validators = c.vm.validators ++ [e.account] ∧
    (∃ r, c'.stk.led.cands e.account = some r ∧ r.info.status = .active ∧ r.info.bond = d) ∧
    c'.stk.led.clock = upd c.stk.led.clock e.account d ∧ (∀ b, b ≠ e.account → c'.stk.led.cands b = c.stk.led.cands b) ∧
    c'.stk.led.free = c.stk.led.free ∧ (∀ x ∈ c'.vm.actions, x.status ≠ .awaiting) := by
  have hm := hc.inv hE
  obtain ⟨⟨p, hv⟩, hcore, ag⟩ := hm
  have hp := (hv.pend e).1 ⟨he, hs⟩
  have hsome := (ready_iff hE hc he hs hk hd).2 hr
  rcases registration_result hE hc he hs hk with ⟨q, _⟩ | ⟨s', hj, q⟩
  · rw [q] at hsome; cases hsome
  · rw [q] at h
    have hdep : depositOf c e.account = d := by unfold depositOf; rw [hd]; rfl
    have hj' := Staking.join_ok hE.par.ok hcore.led.g (show Staking.joinCandidates E.par c.stk.led e.account (depositOf c e.account) _ _ = some s' from hj)
    rw [hdep] at hj'
    have el : c'.stk.led = s' := by rw [h]; rfl
    have ev : c'.vm = Validators.joined c.vm e.tx e.account e.ingress := by rw [h]; rfl
    rw [el, ev]
    refine ⟨?_, rfl, ⟨_, by rw [hj'.now, upd_same], rfl, rfl⟩, hj'.lock, ?_, hj'.same.free, ?_⟩
    · intro hmem
      have := (ag.reg e.account).1 hmem
      rw [ag.wait e he hs hk] at this; cases this
    · intro b hb; rw [hj'.now, upd_ne _ _ hb]
    · intro x hx hxs
      have hx : x ∈ Validators.setAction c.vm.actions e.account e.ingress .actioned .activation := hx
      simp only [Validators.setAction, List.mem_map] at hx
      obtain ⟨y, hy, rfl⟩ := hx
      by_cases hcond : (y.account == e.account && y.ingress == e.ingress) = true
      · rw [if_pos hcond] at hxs; cases hxs
      · rw [if_neg hcond] at hxs
        have := (hv.pend y).1 ⟨hy, hxs⟩
        rw [hp] at this; injection this with this; subst this
        simp at hcond

/-- C112: if the account is not ready any more, the confirmation is refused and nothing at all changes: the registration keeps waiting. -/
theorem C112_otherwise_refused (E : EPar) (hE : E.Sane) (minV : Nat) (c : Chain) (hc : Reach E minV c)
    (e : Validators.Entry) (he : e ∈ c.vm.actions) (hs : e.status = .awaiting) (hk : e.kind = .registration) (d : Nat)
    (hd : c.vm.deposits e.account = some d) (hr : ¬ Ready E c e.account d) :
    step E minV c (.bridgeResult e.tx true true) = c := by
  rcases registration_result hE hc he hs hk with ⟨_, q⟩ | ⟨s', hj, _⟩
  · exact q
  · exact absurd ((ready_iff hE hc he hs hk hd).1 (by rw [hj]; rfl)) hr

/-- C112: as long as a change waits for Ethereum, every other request to add or remove a validator is refused. -/
theorem C112_waiting_blocks_other_changes (E : EPar) (minV : Nat) (c : Chain)
    (e : Validators.Entry) (he : e ∈ c.vm.actions) (hs : e.status = .awaiting) (a k : Nat) (d : Option Nat) (ko bo : Bool) :
    step E minV c (.addCollator a k d ko bo) = c ∧ step E minV c (.removeValidator a ko bo) = c := by
  have hact : Validators.hasActive c.vm = true := by
    unfold Validators.hasActive
    rw [List.any_eq_true]
    exact ⟨e, he, by rw [hs]; rfl⟩
  constructor
  · show addCollator c a k d ko bo = c
    unfold addCollator
    dsimp only
    have : ∀ bond st, Validators.commit c.vm (Validators.addCollator c.vm a k bond (c.keys a).isSome st ko bo) = c.vm := by
      intro bond st
      unfold Validators.addCollator
      by_cases h0 : c.vm.validators = []
      · rw [if_pos h0]; rfl
      rw [if_neg h0]
      by_cases h1 : a ∈ c.vm.validators
      · rw [if_pos h1]; rfl
      rw [if_neg h1]
      by_cases h2 : (c.vm.keys k).isSome = true
      · rw [if_pos h2]; rfl
      rw [if_neg h2]
      by_cases h3 : Validators.maxValidators ≤ c.vm.validators.length
      · rw [if_pos h3]; rfl
      rw [if_neg h3]
      by_cases h4 : (!(c.keys a).isSome) = true
      · rw [if_pos h4]; rfl
      rw [if_neg h4, if_pos hact]; rfl
    rw [this]
  · show { c with vm := Validators.commit c.vm (Validators.removeValidator minV c.vm a ko bo) } = c
    have : Validators.commit c.vm (Validators.removeValidator minV c.vm a ko bo) = c.vm := by
      unfold Validators.removeValidator
      by_cases h0 : c.vm.validators.length ≤ minV
      · rw [if_pos h0]; rfl
      rw [if_neg h0]
      by_cases h1 : a ∉ c.vm.validators
      · rw [if_pos h1]; rfl
      rw [if_neg h1, if_pos hact]; rfl
    rw [this]

/-- C112: a request to register is refused, without effect, unless the account is no candidate, has session keys, and its deposit is free and
at least the minimum stake; an accepted one waits for Ethereum with that deposit. (Whether the account nominates, or whether there is room
for another candidate, is not looked at.) -/
theorem C112_requests_are_checked (E : EPar) (minV : Nat) (c : Chain) (a k : Nat) (d : Option Nat) (ko bo : Bool) (c' : Chain)
    (h : c' = step E minV c (.addCollator a k d ko bo)) :
    c' = c ∨ (a ∉ c.vm.validators ∧ c.stk.led.cands a = none ∧ c.keys a ≠ none ∧
      c.stk.led.minCollator ≤ d.getD c.stk.led.minCollator ∧ d.getD c.stk.led.minCollator ≤ c.stk.led.free a ∧
      c'.vm.deposits a = some (d.getD c.stk.led.minCollator) ∧
      ∃ e ∈ c'.vm.actions, e.account = a ∧ e.status = .awaiting ∧ e.kind = .registration) := by
  obtain ⟨bond, hb⟩ : ∃ bond, bond = d.getD c.stk.led.minCollator := ⟨_, rfl⟩
  have h : c' = { c with vm := (Validators.commit c.vm (Validators.addCollator c.vm a k bond (c.keys a).isSome (stakingReady c.stk.led a bond) ko bo)) } := by
    rw [h, hb]; rfl
  rw [← hb]
  unfold Validators.addCollator at h
  by_cases h0 : c.vm.validators = []
  · rw [if_pos h0] at h; exact Or.inl h
  rw [if_neg h0] at h
  by_cases h1 : a ∈ c.vm.validators
  · rw [if_pos h1] at h; exact Or.inl h
  rw [if_neg h1] at h
  by_cases h2 : (c.vm.keys k).isSome = true
  · rw [if_pos h2] at h; exact Or.inl h
  rw [if_neg h2] at h
  by_cases h3 : Validators.maxValidators ≤ c.vm.validators.length
  · rw [if_pos h3] at h; exact Or.inl h
  rw [if_neg h3] at h
  by_cases h4 : (!(c.keys a).isSome) = true
  · rw [if_pos h4] at h; exact Or.inl h
  rw [if_neg h4] at h
  by_cases h5 : Validators.hasActive c.vm = true
  · rw [if_pos h5] at h; exact Or.inl h
  rw [if_neg h5] at h
  by_cases h6 : (!stakingReady c.stk.led a bond) = true
  · rw [if_pos h6] at h; exact Or.inl h
  rw [if_neg h6] at h
  by_cases h7 : (!ko) = true
  · rw [if_pos h7] at h; exact Or.inl h
  rw [if_neg h7] at h
  by_cases h8 : (!bo) = true
  · rw [if_pos h8] at h; exact Or.inl h
  rw [if_neg h8] at h
  right
  unfold stakingReady at h6
  simp only [Bool.not_eq_true', decide_eq_false_iff_not, not_not] at h6
  refine ⟨h1, Option.isNone_iff_eq_none.1 h6.1, ?_, h6.2.1, h6.2.2, ?_, ?_⟩
  · intro e; rw [e] at h4; exact h4 rfl
  · rw [h]
    show (upd c.vm.deposits a (some bond)) a = some bond
    rw [upd_same]
  · rw [h]
    exact ⟨⟨a, c.vm.ingress + 1, .awaiting, c.vm.nextTx, .registration⟩,
      by simp [Validators.commit, Validators.recordAction], rfl, rfl, rfl⟩

/-- Account 5 registers with a deposit of 40. -/
def joining : List Step := [.setKeys 5 15, .addCollator 5 105 (some 40) true true, .otherPublish, .rotateEthKey 5 105 205]

/-- The state in which the confirmation of Ethereum arrives. -/
def waiting5 : Chain := run Staking.smallE 2 chain0 joining

theorem waiting5_reach : Reach Staking.smallE 2 waiting5 := ⟨_, _, _, joining, chain0_start, rfl⟩

/-- The hypotheses of `C112_confirmed_registration_joins_partial` hold, and the account joins. -/
example : waiting5.vm.actions = [⟨5, 1, .awaiting, 0, .registration⟩] ∧ waiting5.vm.deposits 5 = some 40 ∧
    waiting5.stk.led.minCollator ≤ 40 ∧ waiting5.keys 5 ≠ none ∧ waiting5.stk.led.pool.length < Staking.smallE.par.cfg.maxPool ∧
    40 ≤ waiting5.stk.led.free 5 ∧ (waiting5.stk.led.noms 5).isNone = true ∧
    (step Staking.smallE 2 waiting5 (.bridgeResult 0 true true)).vm.validators = [1, 2, 3, 5] ∧
    (step Staking.smallE 2 waiting5 (.bridgeResult 0 true true)).stk.led.clock 5 = 40 := by decide +kernel

/-- C112 does not hold as stated: an account that nominates (or spends its funds, or removes its session keys) after its request makes
the confirmation fail, and until it corrects that no validator can be added or removed. -/
theorem C112_registration_can_get_stuck : ∃ (E : EPar) (minV : Nat) (c : Chain) (a : Nat), E.Sane ∧ Reach E minV c ∧
    (∃ e ∈ c.vm.actions, e.account = a ∧ e.status = .awaiting ∧ e.kind = .registration ∧ step E minV c (.bridgeResult e.tx true true) = c) ∧
    c.vm.deposits a = some 40 ∧ 40 ≤ c.stk.led.free a := by
  have hr : Reach Staking.smallE 2 (run Staking.smallE 2 chain0 (joining ++ [.staking (.ledger (.nominate 5 1 50 10 10))])) :=
    ⟨_, _, _, joining ++ [.staking (.ledger (.nominate 5 1 50 10 10))], chain0_start, rfl⟩
  refine ⟨Staking.smallE, 2, run Staking.smallE 2 chain0 (joining ++ [.staking (.ledger (.nominate 5 1 50 10 10))]), 5, Staking.smallE_sane,
    hr, ⟨⟨5, 1, .awaiting, 0, .registration⟩, by decide +kernel, rfl, rfl, rfl, ?_⟩, by decide +kernel, by decide +kernel⟩
  refine C112_otherwise_refused _ Staking.smallE_sane 2 _ hr ⟨5, 1, .awaiting, 0, .registration⟩ (by decide +kernel) rfl rfl 40
    (by decide +kernel) ?_
  intro hx
  have := hx.notNominator
  have h2 : ((run Staking.smallE 2 chain0 (joining ++ [.staking (.ledger (.nominate 5 1 50 10 10))])).stk.led.noms 5).isSome = true := by
    decide +kernel
  rw [this] at h2
  cases h2

/-- C112: an account may ask to register while it nominates: such a registration cannot complete from the start, and no misbehaviour after
the request is needed for the above. -/
theorem C112_a_nominator_may_register : ∃ (E : EPar) (minV : Nat) (c : Chain) (a k : Nat), E.Sane ∧ Reach E minV c ∧
    c.stk.led.noms a ≠ none ∧ (∀ d, ¬ Ready E (step E minV c (.addCollator a k none true true)) a d) ∧
    ∃ e ∈ (step E minV c (.addCollator a k none true true)).vm.actions, e.account = a ∧ e.status = .awaiting ∧ e.kind = .registration := by
  refine ⟨Staking.smallE, 2, run Staking.smallE 2 chain0 [.staking (.ledger (.nominate 5 1 50 10 10)), .setKeys 5 15], 5, 105,
    Staking.smallE_sane, ⟨_, _, _, [.staking (.ledger (.nominate 5 1 50 10 10)), .setKeys 5 15], chain0_start, rfl⟩, ?_, ?_, ?_⟩
  · rw [← Option.isSome_iff_ne_none]; decide +kernel
  · intro d hx
    have h1 := hx.notNominator
    have h2 : ((step Staking.smallE 2 (run Staking.smallE 2 chain0 [.staking (.ledger (.nominate 5 1 50 10 10)), .setKeys 5 15])
        (.addCollator 5 105 none true true)).stk.led.noms 5).isSome = true := by decide +kernel
    rw [h1] at h2; cases h2
  · exact ⟨⟨5, 1, .awaiting, 0, .registration⟩, by decide +kernel, rfl, rfl, rfl⟩

end Verif.Membership
