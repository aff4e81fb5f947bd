import Verif.Lemmas.Membership6
import Verif.Props.StakingPayoutCases
import Verif.Props.Validators
import Mathlib.Data.List.Induction

/-!
# C109: the validator list and the staking candidates

Validators-manager, staking and the session pallet keep separate registers of who is a member. These theorems relate them over all
histories: requests, results from Ethereum, calls to staking, session keys and blocks, in any order.
-/

namespace Verif.Membership

open Verif.Staking (EPar St Full EOp CRec Core Inv Eligible BestChoice)

/-- A genesis: the validators are the candidates, nobody is leaving, some accounts (candidates) have session keys, and collators can be
chosen. -/
structure Start (E : EPar) (minV : Nat) (vs : List (Nat × Nat)) (F : Full) (sk : List (Nat × Nat)) : Prop where
  vals : Validators.GoodGenesis minV vs
  stk : Staking.EStart E F
  same : ∀ a, a ∈ vs.map Prod.fst ↔ F.led.cands a ≠ none
  stay : ∀ a r w, F.led.cands a = some r → r.info.status ≠ .leaving w
  accounts : (sk.map Prod.fst).Nodup
  keys : (sk.map Prod.snd).Nodup
  bonded : ∀ a ∈ sk.map Prod.fst, F.led.cands a ≠ none
  delay : 1 ≤ F.led.delay
  chosen : ∃ a x, Eligible F.led a x
  number : 1 ≤ E.minSelected

/-- A state some history reaches from genesis. -/
def Reach (E : EPar) (minV : Nat) (c : Chain) : Prop :=
  ∃ vs F sk steps, Start E minV vs F sk ∧ c = run E minV (genesis vs F sk) steps

theorem Start.inv {E : EPar} (hE : E.Sane) {minV : Nat} {vs : List (Nat × Nat)} {F : Full} {sk : List (Nat × Nat)}
    (h : Start E minV vs F sk) : MInv E minV (genesis vs F sk) := by
  have hst : ∀ a w, standing F.led a ≠ .leaving w := by
    intro a w e
    obtain ⟨r, h1, h2⟩ := standing_leaving.1 e
    exact h.stay a r w h1 h2
  refine ⟨⟨none, Validators.genesis_inv h.vals⟩, h.stk.core hE, ?_, ?_, ?_, ?_, ?_⟩
  · intro a
    show a ∈ vs.map Prod.fst ↔ standing F.led a = .member
    rw [h.same a]
    constructor
    · intro q
      cases e : standing F.led a with
      | out => exact absurd (standing_out.1 e) q
      | member => rfl
      | leaving w => exact absurd e (hst a w)
    · intro q e
      rw [standing_out.2 e] at q; cases q
  · intro a w e; exact absurd e (hst a w)
  · rintro e ⟨he, _⟩; cases he
  · rintro e e' ⟨he, _⟩; cases he
  · intro e he; cases he

theorem find_fst {l : List (Nat × Nat)} (h : (l.map Prod.fst).Nodup) (a k : Nat) :
    (l.find? fun x => x.1 == a).map Prod.snd = some k ↔ (a, k) ∈ l := by
  induction l with
  | nil => simp
  | cons x l ih =>
    obtain ⟨b, j⟩ := x
    obtain ⟨h1, h2⟩ := List.nodup_cons.1 h
    rw [List.find?_cons]
    by_cases e : b = a
    · subst e
      simp only [beq_self_eq_true, Option.map_some, List.mem_cons, Option.some.injEq, Prod.mk.injEq, true_and]
      constructor
      · intro q; exact Or.inl q.symm
      · rintro (q | q)
        · exact q.symm
        · exact absurd (List.mem_map.2 ⟨_, q, rfl⟩) h1
    · have e2 : ((b, j).1 == a) = false := by simp [e]
      rw [e2]
      rw [ih h2, List.mem_cons]
      constructor
      · exact Or.inr
      · rintro (q | q)
        · injection q with q; exact absurd q.symm e
        · exact q

theorem find_snd {l : List (Nat × Nat)} (h : (l.map Prod.snd).Nodup) (a k : Nat) :
    (l.find? fun x => x.2 == k).map Prod.fst = some a ↔ (a, k) ∈ l := by
  induction l with
  | nil => simp
  | cons x l ih =>
    obtain ⟨b, j⟩ := x
    obtain ⟨h1, h2⟩ := List.nodup_cons.1 h
    rw [List.find?_cons]
    by_cases e : j = k
    · subst e
      simp only [beq_self_eq_true, Option.map_some, List.mem_cons, Option.some.injEq, Prod.mk.injEq, and_true]
      constructor
      · intro q; exact Or.inl q.symm
      · rintro (q | q)
        · exact q.symm
        · exact absurd (List.mem_map.2 ⟨_, q, rfl⟩) h1
    · have e2 : ((b, j).2 == k) = false := by simp [e]
      rw [e2]
      rw [ih h2, List.mem_cons]
      constructor
      · exact Or.inr
      · rintro (q | q)
        · injection q with q1 q2; exact absurd q2.symm e
        · exact q

theorem Start.selected {E : EPar} (hE : E.Sane) {minV : Nat} {vs : List (Nat × Nat)} {F : Full} {sk : List (Nat × Nat)}
    (h : Start E minV vs F sk) : BestChoice F.led E.minSelected F.selected ∧ F.selected ≠ [] :=
  Staking.C51_genesis_selection E hE F h.stk h.number h.chosen

theorem EStart_total {E : EPar} (hE : E.Sane) {F : Full} (h : Staking.EStart E F) : F.totalSelected = E.minSelected := by
  obtain ⟨d, mt, mc, fr, setup, hm, hn, hg⟩ := h
  have hi := Staking.run_inv hE.par.ok hE.par.per.1 (Staking.init_inv (delay := d) (mc := mc) (free := fr) hm) setup
  obtain ⟨G, h1, h2⟩ := Staking.selectTop_ok (E := E) (F := Staking.blank E (Staking.run E.par (St.init d mt mc fr) setup)) hi 1
    (by intro c hc; cases hc)
  have h1 : Staking.genesis E (Staking.run E.par (St.init d mt mc fr) setup) = some G := h1
  rw [h1] at hg
  injection hg with hg
  subst hg
  exact h2.frame.totalSelected

theorem Start.sinv {E : EPar} (hE : E.Sane) {minV : Nat} {vs : List (Nat × Nat)} {F : Full} {sk : List (Nat × Nat)}
    (h : Start E minV vs F sk) : SInv E (genesis vs F sk) := by
  obtain ⟨h1, h2⟩ := h.selected hE
  refine ⟨?_, h2, h1.once, h.accounts, h.keys, h.accounts, h.keys, fun _ => rfl, ?_, h.delay⟩
  · intro a k
    show (sk.find? fun x => x.1 == a).map Prod.snd = some k ↔ (sk.find? fun x => x.2 == k).map Prod.fst = some a
    rw [find_fst h.accounts, find_snd h.keys]
  · intro e
    show 1 ≤ F.totalSelected
    rw [EStart_total hE h.stk]; exact e

theorem run_sinv {E : EPar} (hE : E.Sane) {minV : Nat} {c : Chain} (hm : MInv E minV c) (h : SInv E c) (xs : List Step) :
    SInv E (run E minV c xs) := by
  induction xs generalizing c with
  | nil => exact h
  | cons x xs ih => exact ih (step_inv hE hm x) (h.step hE hm x)

theorem Reach.inv {E : EPar} (hE : E.Sane) {minV : Nat} {c : Chain} (h : Reach E minV c) : MInv E minV c := by
  obtain ⟨vs, F, sk, steps, h1, rfl⟩ := h
  exact run_minv hE (h1.inv hE) steps

theorem Reach.sinv {E : EPar} (hE : E.Sane) {minV : Nat} {c : Chain} (h : Reach E minV c) : SInv E c := by
  obtain ⟨vs, F, sk, steps, h1, rfl⟩ := h
  exact run_sinv hE (h1.inv hE) (h1.sinv hE) steps

theorem Reach.step {E : EPar} {minV : Nat} {c : Chain} (h : Reach E minV c) (x : Step) : Reach E minV (step E minV c x) := by
  obtain ⟨vs, F, sk, steps, h1, rfl⟩ := h
  exact ⟨vs, F, sk, steps ++ [x], h1, (run_snoc ..).symm⟩

/-! ### C109 -/

/-- C109: in every reachable state the validators are exactly the staking candidates who are not leaving. -/
theorem C109_validators_are_the_staying_candidates (E : EPar) (hE : E.Sane) (minV : Nat) (c : Chain) (hc : Reach E minV c) (a : Nat) :
    a ∈ c.vm.validators ↔ ∃ r, c.stk.led.cands a = some r ∧ ∀ w, r.info.status ≠ .leaving w := by
  rw [(hc.inv hE).agree.reg a, standing_member]
  constructor
  · rintro ⟨r, h1, h2⟩
    refine ⟨r, h1, fun w e => ?_⟩
    unfold Staking.Info.isLeaving at h2
    rw [e] at h2; cases h2
  · rintro ⟨r, h1, h2⟩
    refine ⟨r, h1, ?_⟩
    unfold Staking.Info.isLeaving
    cases e : r.info.status with
    | leaving w => exact absurd e (h2 w)
    | active => rfl
    | idle => rfl

/-- C109: a leaving candidate is an account whose removal Ethereum confirmed and whose exit is still recorded, in exactly one entry; and
every such entry has its leaving candidate. -/
theorem C109_leaving_candidates_are_the_confirmed_removals (E : EPar) (hE : E.Sane) (minV : Nat) (c : Chain) (hc : Reach E minV c) (a : Nat) :
    (∃ r w, c.stk.led.cands a = some r ∧ r.info.status = .leaving w) ↔
      ∃ e, e ∈ c.vm.actions ∧ e.status = .actioned ∧ e.kind = .resignation ∧ e.account = a ∧
        ∀ e' ∈ c.vm.actions, e'.status = .actioned → e'.kind = .resignation → e'.account = a → e' = e := by
  have ha := (hc.inv hE).agree
  constructor
  · rintro ⟨r, w, h1, h2⟩
    obtain ⟨e, g, h3⟩ := ha.leav a w (standing_leaving.2 ⟨r, h1, h2⟩)
    exact ⟨e, g.1, g.2.1, g.2.2, h3, fun e' q1 q2 q3 q4 => ha.one e' e ⟨q1, q2, q3⟩ g (q4.trans h3.symm)⟩
  · rintro ⟨e, h1, h2, h3, h4, _⟩
    obtain ⟨w, hw⟩ := ha.exit e ⟨h1, h2, h3⟩
    rw [h4] at hw
    obtain ⟨r, q1, q2⟩ := standing_leaving.1 hw
    exact ⟨r, w, q1, q2⟩

/-- C109: the bond of a candidate is locked, and nothing is locked as a bond for any other account. -/
theorem C109_bonds_are_locked (E : EPar) (hE : E.Sane) (minV : Nat) (c : Chain) (hc : Reach E minV c) (a : Nat) :
    (∀ r, c.stk.led.cands a = some r → c.stk.led.clock a = r.info.bond) ∧ (c.stk.led.cands a = none → c.stk.led.clock a = 0) := by
  have h := (hc.inv hE).core.led.g.c.lock a
  constructor
  · intro r hr; rw [h, hr]; rfl
  · intro hr; rw [h, hr]; rfl

/-- C109: when Ethereum confirms a removal, staking always takes it: the account is no longer a validator, its exit from staking is
scheduled with the present delay, and nobody else is affected. -/
theorem C109_confirmed_removal_is_carried_out (E : EPar) (hE : E.Sane) (minV : Nat) (c : Chain) (hc : Reach E minV c)
    (e : Validators.Entry) (he : e ∈ c.vm.actions) (hs : e.status = .awaiting) (hk : e.kind = .resignation) (c' : Chain)
    (h : c' = step E minV c (.bridgeResult e.tx true true)) :
    e.account ∈ c.vm.validators ∧ e.account ∉ c'.vm.validators ∧
    (∃ r, c'.stk.led.cands e.account = some r ∧ r.info.status = .leaving (c.stk.led.era + c.stk.led.delay)) ∧
    (∀ b, b ≠ e.account → (b ∈ c'.vm.validators ↔ b ∈ c.vm.validators) ∧ c'.stk.led.cands b = c.stk.led.cands b) := by
  obtain ⟨⟨p, hv⟩, hcore, ag⟩ := hc.inv hE
  have hp := (hv.pend e).1 ⟨he, hs⟩
  have hw : ResultView E p c e.tx true true c' := by rw [h]; exact bridgeResult_view E hv e.tx true true
  have hmem : e.account ∈ c.vm.validators := by
    rcases (hv.pok e hp).2.2.2 with ⟨q, _⟩ | ⟨_, q, _⟩
    · rw [hk] at q; cases q
    · exact q
  refine ⟨hmem, ?_⟩
  generalize htx : e.tx = tx at hw
  generalize hok : true = ok at hw
  cases hw with
  | ignored why =>
    exfalso
    rcases why with q | q
    · rw [← hok] at q; cases q
    · rw [hv.tx tx, hp] at q
      have : (if tx = e.tx then some (e.account, e.ingress) else none) = none := q
      rw [if_pos htx.symm] at this
      cases this
  | refused e' hp' ht hm ho why =>
    exfalso
    rw [hp] at hp'; injection hp' with hp'; subst hp'
    rcases why with ⟨q, _⟩ | ⟨_, q⟩
    · rw [hk] at q; cases q
    · obtain ⟨s', hs'⟩ := scheduleLeave_some ((ag.reg e.account).1 hmem)
      rw [hs'] at q; cases q
  | failReg e' k hp' ht hm ho hk' hr => rw [← hok] at ho; cases ho
  | failRes e' hp' ht hm ho hk' => rw [← hok] at ho; cases ho
  | joined e' s' hp' ht hm ho hk' hj =>
    rw [hp] at hp'; injection hp' with hp'; subst hp'; rw [hk] at hk'; cases hk'
  | left e' k s' hp' ht hm ho hk' hr hj =>
    rw [hp] at hp'; injection hp' with hp'; subst hp'
    obtain ⟨q1, q2, q3, q4⟩ := scheduleLeave_standing hcore.led hj
    obtain ⟨r, r1, r2⟩ := Staking.scheduleLeave_ok hcore.led.g hj
    refine ⟨?_, ?_, ?_⟩
    · show e.account ∉ c.vm.validators.filter fun v => v != e.account
      simp
    · obtain ⟨r, w1, w2⟩ := standing_leaving.1 q1
      exact ⟨r, w1, w2⟩
    · intro b hb
      refine ⟨?_, ?_⟩
      · show b ∈ c.vm.validators.filter (fun v => v != e.account) ↔ _
        simp [hb]
      · show s'.cands b = _
        rw [r2.now, upd_ne _ _ hb]

/-- C109: at a new session the exit of a removed validator whose delay has passed, who is not about to author, and whose entry is
visited, takes place: it is not a candidate any more and its bond is free. (The loop stops early only at an activated account that has
lost its Ethereum key.) -/
theorem C109_due_exit_takes_place (E : EPar) (hE : E.Sane) (minV : Nat) (c : Chain) (hc : Reach E minV c) (pub : Nat → Option Nat)
    (now author pick : Nat) (visit : List (Nat × Nat)) (c' : Chain) (h : c' = step E minV c (.block pub now author pick visit))
    (hrot : c'.index ≠ c.index) (e : Validators.Entry) (he : e ∈ c.vm.actions) (hs : e.status = .actioned) (hk : e.kind = .resignation)
    (hvis : (e.account, e.ingress) ∈ visit) (r : CRec) (w : Nat) (hr : c.stk.led.cands e.account = some r)
    (hl : r.info.status = .leaving w) (hdue : w ≤ c.stk.led.era) (hidle : e.account ∉ c.queued.map Prod.fst)
    (hkeys : ∀ x ∈ c.vm.actions, x.status = .actioned → x.kind = .activation → (c.vm.rev x.account).isSome = true) :
    c'.stk.led.cands e.account = none ∧ c'.stk.led.clock e.account = 0 := by
  have hm := hc.inv hE
  have hc' : Reach E minV c' := by rw [h]; exact hc.step _
  have hnone : c'.stk.led.cands e.account = none := by
    rcases step_kind hE hm (.block pub now author pick visit) with q | ⟨_, _, _, _, visit', S, era, q1, _, q⟩
    · rw [← h] at q; exact absurd q.index hrot
    · injection q1 with _ _ _ _ q1
      subst q1
      rw [← h] at q
      refine q.exits e.account hidle hkeys ⟨e, w, ⟨he, hs, hk⟩, rfl, hvis, standing_leaving.2 ⟨r, hr, hl⟩, ?_⟩
      rcases q.plan with ⟨_, q⟩ | ⟨_, q⟩
      · rw [q]; exact hdue
      · rw [q]; omega
  exact ⟨hnone, (C109_bonds_are_locked E hE minV c' hc' e.account).2 hnone⟩

/-- C109: nothing else ends a candidacy: a candidate stops being one only at a new session, after its removal was confirmed, when its delay
has passed and it is not about to author. -/
theorem C109_candidates_leave_only_by_removal (E : EPar) (hE : E.Sane) (minV : Nat) (c : Chain) (hc : Reach E minV c) (x : Step) (a : Nat)
    (r : CRec) (hr : c.stk.led.cands a = some r) (hn : (step E minV c x).stk.led.cands a = none) :
    (step E minV c x).index = c.index + 1 ∧ a ∉ c.vm.validators ∧ a ∉ c.queued.map Prod.fst ∧
      ∃ w, r.info.status = .leaving w ∧ w ≤ c.stk.led.era + 1 := by
  have hm := hc.inv hE
  rcases step_kind hE hm x with q | ⟨_, _, _, _, _, S, era, _, _, q⟩
  · exfalso
    have h0 := standing_out.2 hn
    rcases q.stand a with e | e | e
    · rw [e] at h0; rw [standing_out.1 h0] at hr; cases hr
    · rw [e] at h0; cases h0
    · rw [e] at h0; cases h0
  · rcases q.cands a with e | ⟨⟨w, e, hw⟩, hq, _⟩
    · rw [hn, hr] at e; cases e
    · obtain ⟨r', e1, e2⟩ := standing_leaving.1 e
      rw [hr] at e1; injection e1 with e1; subst e1
      refine ⟨q.index, ?_, hq, w, e2, ?_⟩
      · intro hv
        rw [(hm.agree.reg a).1 hv] at e; cases e
      · rcases q.plan with ⟨_, p⟩ | ⟨_, p⟩ <;> rw [p] at hw <;> omega

/-! ### A concrete chain -/

/-- Three validators with session keys; collators 1 and 2 are selected. -/
def chain0 : Chain := genesis Validators.gen3 Staking.small0 [(1, 11), (2, 12), (3, 13)]

theorem small0_led : Staking.small0.led = Staking.smallLed := by
  obtain ⟨d, mt, mc, fr, setup, hm, hn, hg⟩ := Staking.small0_start
  have h : (Staking.genesis Staking.smallE Staking.smallLed).isSome = true :=
    Staking.C75_genesis_never_panics Staking.smallE Staking.smallE_sane 2 1 5 _ Staking.smallSetup (by decide) (by simp [Staking.smallSetup])
  obtain ⟨G, hG⟩ := Option.isSome_iff_exists.1 h
  have hi : Inv Staking.smallE.par Staking.smallLed :=
    Staking.run_inv Staking.smallE_sane.par.ok Staking.smallE_sane.par.per.1
      (Staking.init_inv (delay := 2) (mc := 5) (free := fun a => if a = 90 then 0 else 1000) (by decide)) Staking.smallSetup
  obtain ⟨G', h1, h2⟩ := Staking.selectTop_ok (E := Staking.smallE) (F := Staking.blank Staking.smallE Staking.smallLed) hi 1
    (by intro c hc; cases hc)
  have h1 : Staking.genesis Staking.smallE Staking.smallLed = some G' := h1
  unfold Staking.small0
  rw [h1]
  exact h2.frame.led

theorem smallLed_cands (a : Nat) (h : a ≠ 1 ∧ a ≠ 2 ∧ a ≠ 3) : Staking.smallLed.cands a = none := by
  have hE := Staking.smallE_sane
  have inv0 : Inv Staking.smallE.par (St.init 2 1 5 (fun a => if a = 90 then 0 else 1000)) := Staking.init_inv (by decide)
  obtain ⟨s0, hs0⟩ : ∃ s0, s0 = St.init 2 1 5 (fun a => if a = 90 then 0 else 1000) := ⟨_, rfl⟩
  have c0 : s0.cands a = none := by rw [hs0]; rfl
  have e : Staking.smallLed = Staking.run Staking.smallPar s0 Staking.smallSetup := by rw [hs0]; rfl
  have join : ∀ (s : St) (b bond hint : Nat), Inv Staking.smallPar s → a ≠ b → s.cands a = none → (Staking.step Staking.smallPar s (.join b bond hint true)).cands a = none := by
    intro s b bond hint hi hb hn
    show ((Staking.joinCandidates Staking.smallPar s b bond hint true).getD s).cands a = none
    cases hj : Staking.joinCandidates Staking.smallPar s b bond hint true with
    | none => exact hn
    | some s' => exact standing_out.1 ((join_standing hE.par.ok hi hj).2.1 a hb ▸ standing_out.2 hn)
  have inv : ∀ l, Inv Staking.smallPar (Staking.run Staking.smallPar s0 l) := fun l => Staking.run_inv hE.par.ok hE.par.per.1 (hs0 ▸ inv0) l
  have c3 : (Staking.run Staking.smallPar s0 (Staking.smallSetup.take 3)).cands a = none :=
    join _ 3 20 10 (inv (Staking.smallSetup.take 2)) h.2.2 (join _ 2 30 10 (inv (Staking.smallSetup.take 1)) h.2.1 (join _ 1 10 10 (inv []) h.1 c0))
  rw [e]
  show (Staking.step Staking.smallPar (Staking.run Staking.smallPar s0 (Staking.smallSetup.take 3)) (.nominate 4 1 50 10 10)).cands a = none
  have hq : ∀ s', Staking.call Staking.smallPar (Staking.run Staking.smallPar s0 (Staking.smallSetup.take 3)) (.nominate 4 1 50 10 10) = some s' → s'.cands a = none := fun s' hs =>
    standing_out.1 (((call_quiet (E := Staking.smallE) hE (inv _) (op := .nominate 4 1 50 10 10) rfl rfl hs).stand a).trans (standing_out.2 c3))
  show ((Staking.call Staking.smallPar (Staking.run Staking.smallPar s0 (Staking.smallSetup.take 3)) (.nominate 4 1 50 10 10)).getD _).cands a = none
  cases hc : Staking.call Staking.smallPar (Staking.run Staking.smallPar s0 (Staking.smallSetup.take 3)) (.nominate 4 1 50 10 10) with
  | none => exact c3
  | some s' => exact hq s' hc
theorem smallLed_active (a : Nat) (ha : a = 1 ∨ a = 2 ∨ a = 3) (r : CRec) (hr : Staking.smallLed.cands a = some r) : r.info.status = .active := by
  rcases ha with rfl | rfl | rfl
  · have : (Staking.smallLed.cands 1).map (fun r => r.info.status) = some .active := by decide +kernel
    rw [hr] at this; simpa using this
  · have : (Staking.smallLed.cands 2).map (fun r => r.info.status) = some .active := by decide +kernel
    rw [hr] at this; simpa using this
  · have : (Staking.smallLed.cands 3).map (fun r => r.info.status) = some .active := by decide +kernel
    rw [hr] at this; simpa using this

theorem smallLed_is (a : Nat) : (a = 1 ∨ a = 2 ∨ a = 3) ↔ Staking.smallLed.cands a ≠ none := by
  constructor
  · have h : Staking.smallLed.cands 1 ≠ none ∧ Staking.smallLed.cands 2 ≠ none ∧ Staking.smallLed.cands 3 ≠ none := by
      have q : (Staking.smallLed.cands 1).isSome = true ∧ (Staking.smallLed.cands 2).isSome = true ∧ (Staking.smallLed.cands 3).isSome = true := by
        decide +kernel
      refine ⟨fun e => ?_, fun e => ?_, fun e => ?_⟩
      · rw [e] at q; exact absurd q.1 (by decide)
      · rw [e] at q; exact absurd q.2.1 (by decide)
      · rw [e] at q; exact absurd q.2.2 (by decide)
    rintro (rfl | rfl | rfl)
    · exact h.1
    · exact h.2.1
    · exact h.2.2
  · intro h
    by_cases q : a = 1 ∨ a = 2 ∨ a = 3
    · exact q
    · push Not at q
      exact absurd (smallLed_cands a q) h

theorem chain0_start : Start Staking.smallE 2 Validators.gen3 Staking.small0 [(1, 11), (2, 12), (3, 13)] := by
  refine ⟨Validators.gen3_good, Staking.small0_start, ?_, ?_, by decide, by decide, ?_, ?_, ?_, by decide⟩
  · intro a
    rw [small0_led, ← smallLed_is]
    simp [Validators.gen3]
  · intro a r w hr e
    rw [small0_led] at hr
    have := smallLed_active a ((smallLed_is a).2 (by rw [hr]; simp)) r hr
    rw [this] at e; cases e
  · intro a ha
    rw [small0_led, ← smallLed_is]
    simpa using ha
  · rw [small0_led]; decide +kernel
  · rw [small0_led]
    obtain ⟨r, hr⟩ := Option.ne_none_iff_exists'.1 ((smallLed_is 1).1 (Or.inl rfl))
    refine ⟨1, r.info.bond + Staking.bondSum r.top.list, r, hr, smallLed_active 1 (Or.inl rfl) r hr, rfl, ?_⟩
    have : (Staking.smallLed.cands 1).map (fun r => decide (Staking.smallLed.minCollator ≤ r.info.bond + Staking.bondSum r.top.list)) = some true := by decide +kernel
    rw [hr] at this
    simpa using this

/-- A block with number `now`, authored by 1. -/
def blk (now : Nat) (visit : List (Nat × Nat)) : Step := .block (fun p => some (100 + p)) now 1 0 visit

/-- Validator 2 is removed; three eras later its exit takes place. -/
def leaving2 : List Step :=
  [.removeValidator 2 true true, blk 1 [], .bridgeResult 0 true true, blk 5 [(2, 1)], blk 10 [(2, 1)], .setKeys 2 77, blk 15 [(2, 1)]]

/-- The states of that history. -/
def at2 (n : Nat) : Chain := run Staking.smallE 2 chain0 (leaving2.take n)

theorem at2_reach (n : Nat) : Reach Staking.smallE 2 (at2 n) := ⟨_, _, _, leaving2.take n, chain0_start, rfl⟩

/-- The removal is confirmed in era 1 and due in era 3; until then 2 stays a (leaving) candidate, and its bond of 30 stays locked. -/
example : (at2 2).vm.validators = [1, 2, 3] ∧ (at2 2).vm.actions = [⟨2, 1, .awaiting, 0, .resignation⟩] ∧
    (at2 3).vm.validators = [1, 3] ∧ ((at2 3).stk.led.cands 2).map (fun r => r.info.status) = some (.leaving 3) ∧
    ((at2 6).stk.led.cands 2).map (fun r => r.info.status) = some (.leaving 3) ∧ (at2 6).stk.led.clock 2 = 30 ∧
    (at2 7).stk.led.cands 2 = none ∧ (at2 7).stk.led.clock 2 = 0 := by decide +kernel

/-- The hypotheses of `C109_confirmed_removal_is_carried_out` hold there. -/
example : ∃ e ∈ (at2 2).vm.actions, e.status = .awaiting ∧ e.kind = .resignation ∧ e.account = 2 :=
  ⟨⟨2, 1, .awaiting, 0, .resignation⟩, by decide +kernel, rfl, rfl, rfl⟩

/-- The hypotheses of `C109_due_exit_takes_place` hold there. -/
example : (at2 7).index ≠ (at2 6).index ∧ (at2 6).vm.actions = [⟨2, 1, .actioned, 0, .resignation⟩] ∧ 3 ≤ (at2 6).stk.led.era ∧
    2 ∉ (at2 6).queued.map Prod.fst := by decide +kernel

end Verif.Membership
