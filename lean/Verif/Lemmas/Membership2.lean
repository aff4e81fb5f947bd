import Verif.Lemmas.Membership

/-! # Membership: results of the bridge -/

namespace Verif.Membership

open Verif.Staking (EPar St Full EOp CRec Core Inv)

/-- The deposit with which a registration joins staking. -/
def depositOf (c : Chain) (a : Nat) : Nat := (c.vm.deposits a).getD c.stk.led.minCollator

/-- The staking part of a registration. -/
def joinOf (E : EPar) (c : Chain) (a : Nat) : Option St :=
  Staking.joinCandidates E.par c.stk.led a (depositOf c a) c.stk.led.pool.length (c.keys a).isSome

/-- What a result of the bridge does. -/
inductive ResultView (E : EPar) (p : Option Validators.Entry) (c : Chain) (tx : Nat) (mine ok : Bool) : Chain → Prop
  | ignored (why : mine = false ∨ c.vm.txMap tx = none) : ResultView E p c tx mine ok c
  | refused (e : Validators.Entry) (hp : p = some e) (ht : e.tx = tx) (hm : mine = true) (ho : ok = true)
      (why : e.kind = .registration ∧ joinOf E c e.account = none ∨
        e.kind = .resignation ∧ Staking.scheduleLeave c.stk.led e.account c.stk.led.pool.length = none) : ResultView E p c tx mine ok c
  | failReg (e : Validators.Entry) (k : Nat) (hp : p = some e) (ht : e.tx = tx) (hm : mine = true) (ho : ok = false)
      (hk : e.kind = .registration) (hr : c.vm.rev e.account = some k) :
      ResultView E p c tx mine ok { c with vm := Validators.failReg c.vm tx e.account e.ingress k }
  | failRes (e : Validators.Entry) (hp : p = some e) (ht : e.tx = tx) (hm : mine = true) (ho : ok = false) (hk : e.kind = .resignation) :
      ResultView E p c tx mine ok { c with vm := Validators.failRes c.vm tx e.account e.ingress }
  | joined (e : Validators.Entry) (s' : St) (hp : p = some e) (ht : e.tx = tx) (hm : mine = true) (ho : ok = true)
      (hk : e.kind = .registration) (hj : joinOf E c e.account = some s') :
      ResultView E p c tx mine ok ({ c with vm := Validators.joined c.vm tx e.account e.ingress }.withLed s')
  | left (e : Validators.Entry) (k : Nat) (s' : St) (hp : p = some e) (ht : e.tx = tx) (hm : mine = true) (ho : ok = true)
      (hk : e.kind = .resignation) (hr : c.vm.rev e.account = some k)
      (hj : Staking.scheduleLeave c.stk.led e.account c.stk.led.pool.length = some s') :
      ResultView E p c tx mine ok ({ c with vm := Validators.left c.vm tx e.account e.ingress k }.withLed s')

theorem processResult_fail {minV : Nat} {p : Option Validators.Entry} {vm : Validators.State} (hi : Validators.Inv minV p vm)
    {e : Validators.Entry} (hp : p = some e) (st : Bool) :
    (e.kind = .registration ∧ ∃ k, vm.rev e.account = some k ∧
      Validators.processResult vm e.tx true false st = (Validators.failReg vm e.tx e.account e.ingress k, none)) ∨
    (e.kind = .resignation ∧ Validators.processResult vm e.tx true false st = (Validators.failRes vm e.tx e.account e.ingress, none)) := by
  have ht : vm.txMap e.tx = some (e.account, e.ingress) := by rw [hi.tx, hp]; simp
  have hg : Validators.getAction { vm with txMap := upd vm.txMap e.tx none } e.account e.ingress = some e :=
    Validators.getAction_of_mem (s := { vm with txMap := upd vm.txMap e.tx none }) hi.uniq ((hi.pend e).mpr hp).1
  have hk := (hi.pok e hp).2.2.2
  unfold Validators.processResult
  simp only [Bool.not_true, Bool.false_eq_true, if_false]
  rw [ht]
  dsimp only
  rw [hg]
  simp only [Bool.not_false, if_true]
  rcases hk with ⟨hk, hk2⟩ | ⟨hk, hk2⟩
  · obtain ⟨k, hrev⟩ := Option.isSome_iff_exists.mp hk2.2.2
    refine Or.inl ⟨hk, k, hrev, ?_⟩
    rw [if_pos hk]
    simp [Validators.cleanupRegistration, Validators.removeKey, hrev, Validators.failReg]
  · have : e.kind ≠ .registration := by rw [hk]; decide
    refine Or.inr ⟨hk, ?_⟩
    rw [if_neg this]
    rfl

theorem processResult_good {minV : Nat} {p : Option Validators.Entry} {vm : Validators.State} (hi : Validators.Inv minV p vm)
    {e : Validators.Entry} (hp : p = some e) :
    (e.kind = .registration ∧ Validators.processResult vm e.tx true true true = (Validators.joined vm e.tx e.account e.ingress, none)) ∨
    (e.kind = .resignation ∧ ∃ k, vm.rev e.account = some k ∧
      Validators.processResult vm e.tx true true true = (Validators.left vm e.tx e.account e.ingress k, none)) := by
  have ht : vm.txMap e.tx = some (e.account, e.ingress) := by rw [hi.tx, hp]; simp
  have hg : Validators.getAction { vm with txMap := upd vm.txMap e.tx none } e.account e.ingress = some e :=
    Validators.getAction_of_mem (s := { vm with txMap := upd vm.txMap e.tx none }) hi.uniq ((hi.pend e).mpr hp).1
  have hk := (hi.pok e hp).2.2.2
  unfold Validators.processResult
  simp only [Bool.not_true, Bool.false_eq_true, if_false]
  rw [ht]
  dsimp only
  rw [hg]
  dsimp only
  rcases hk with ⟨hk, hk2⟩ | ⟨hk, hk2⟩
  · refine Or.inl ⟨hk, ?_⟩
    rw [if_pos hk]
    unfold Validators.completeRegistration
    have : ¬ Validators.maxValidators ≤ vm.validators.length := by omega
    dsimp only
    rw [if_neg this]
    rfl
  · have : e.kind ≠ .registration := by rw [hk]; decide
    obtain ⟨k, hrev⟩ := Option.isSome_iff_exists.mp (hi.hasKey _ hk2.1)
    refine Or.inr ⟨hk, k, hrev, ?_⟩
    rw [if_neg this, if_pos hk]
    unfold Validators.completeDeregistration
    simp only [Bool.not_true, Bool.false_eq_true, if_false, Validators.removeKey, hrev]
    rfl

theorem processResult_bad {minV : Nat} {p : Option Validators.Entry} {vm : Validators.State} (hi : Validators.Inv minV p vm)
    {e : Validators.Entry} (hp : p = some e) : (Validators.processResult vm e.tx true true false).2 ≠ none := by
  have ht : vm.txMap e.tx = some (e.account, e.ingress) := by rw [hi.tx, hp]; simp
  have hg : Validators.getAction { vm with txMap := upd vm.txMap e.tx none } e.account e.ingress = some e :=
    Validators.getAction_of_mem (s := { vm with txMap := upd vm.txMap e.tx none }) hi.uniq ((hi.pend e).mpr hp).1
  have hk := (hi.pok e hp).2.2.2
  unfold Validators.processResult
  simp only [Bool.not_true, Bool.false_eq_true, if_false]
  rw [ht]
  dsimp only
  rw [hg]
  dsimp only
  rcases hk with ⟨hk, hk2⟩ | ⟨hk, hk2⟩
  · rw [if_pos hk]
    unfold Validators.completeRegistration
    have : ¬ Validators.maxValidators ≤ vm.validators.length := by omega
    dsimp only
    rw [if_neg this]
    simp
  · have : e.kind ≠ .registration := by rw [hk]; decide
    rw [if_neg this, if_pos hk]
    unfold Validators.completeDeregistration
    simp

theorem stakingPart_of {minV : Nat} (E : EPar) {p : Option Validators.Entry} {c : Chain} (hi : Validators.Inv minV p c.vm)
    {e : Validators.Entry} (hp : p = some e) :
    stakingPart E c e.tx = if e.kind = .registration then joinOf E c e.account
      else Staking.scheduleLeave c.stk.led e.account c.stk.led.pool.length := by
  have ht : c.vm.txMap e.tx = some (e.account, e.ingress) := by rw [hi.tx, hp]; simp
  have hg : Validators.getAction c.vm e.account e.ingress = some e := Validators.getAction_of_mem hi.uniq ((hi.pend e).mpr hp).1
  have hk := (hi.pok e hp).2.2.2
  unfold stakingPart
  rw [ht]
  dsimp only
  rw [hg]
  dsimp only
  rcases hk with ⟨hk, _⟩ | ⟨hk, _⟩
  · rw [if_pos hk, if_pos hk]; rfl
  · have : e.kind ≠ .registration := by rw [hk]; decide
    rw [if_neg this, if_neg this, if_pos hk]

theorem bridgeResult_view {minV : Nat} (E : EPar) {p : Option Validators.Entry} {c : Chain} (hi : Validators.Inv minV p c.vm)
    (tx : Nat) (mine ok : Bool) : ResultView E p c tx mine ok (bridgeResult E c tx mine ok) := by
  cases mine with
  | false => exact .ignored (Or.inl rfl)
  | true =>
  cases ht : c.vm.txMap tx with
  | none =>
    have h0 : stakingPart E c tx = some c.stk.led := by unfold stakingPart; rw [ht]
    have h1 : bridgeResult E c tx true ok = c := by
      unfold bridgeResult Validators.processResult
      rw [ht, h0]
      simp
    rw [h1]
    exact .ignored (Or.inr ht)
  | some q =>
  obtain ⟨a, i⟩ := q
  obtain ⟨e, hp, h1, h2, h3, h4⟩ := hi.pending ht
  subst h1
  cases ok with
  | false =>
    have hb : ∀ vm', Validators.processResult c.vm e.tx true false true = (vm', none) →
        bridgeResult E c e.tx true false = { c with vm := vm' } := by
      intro vm' hv
      unfold bridgeResult
      simp only [Bool.and_false, Bool.false_eq_true, if_false, Option.isSome_some]
      rw [hv]
      rfl
    rcases processResult_fail hi hp true with ⟨hk, k, hr, hq⟩ | ⟨hk, hq⟩
    · rw [hb _ hq]; exact .failReg e k hp rfl rfl rfl hk hr
    · rw [hb _ hq]; exact .failRes e hp rfl rfl rfl hk
  | true =>
    have hpart := stakingPart_of E hi hp
    have hbad : stakingPart E c e.tx = none → bridgeResult E c e.tx true true = c := by
      intro hn
      unfold bridgeResult
      simp only [Bool.and_self, if_true]
      rw [hn]
      have := processResult_bad hi hp
      dsimp only [Option.isSome_none]
      generalize Validators.processResult c.vm e.tx true true false = r at this
      obtain ⟨vm', o⟩ := r
      cases o with
      | none => exact absurd rfl this
      | some x => rfl
    have hgood : ∀ s' vm', stakingPart E c e.tx = some s' → Validators.processResult c.vm e.tx true true true = (vm', none) →
        bridgeResult E c e.tx true true = { c with vm := vm' }.withLed s' := by
      intro s' vm' hs hv
      unfold bridgeResult
      simp only [Bool.and_self, if_true]
      rw [hs]
      dsimp only [Option.isSome_some]
      rw [hv]
      rfl
    rcases processResult_good hi hp with ⟨hk, hq⟩ | ⟨hk, k, hr, hq⟩
    · rw [if_pos hk] at hpart
      cases hj : joinOf E c e.account with
      | none => rw [hbad (hpart.trans hj)]; exact .refused e hp rfl rfl rfl (Or.inl ⟨hk, hj⟩)
      | some s' => rw [hgood _ _ (hpart.trans hj) hq]; exact .joined e s' hp rfl rfl rfl hk hj
    · have hkn : e.kind ≠ .registration := by rw [hk]; decide
      rw [if_neg hkn] at hpart
      cases hj : Staking.scheduleLeave c.stk.led e.account c.stk.led.pool.length with
      | none => rw [hbad (hpart.trans hj)]; exact .refused e hp rfl rfl rfl (Or.inr ⟨hk, hj⟩)
      | some s' => rw [hgood _ _ (hpart.trans hj) hq]; exact .left e k s' hp rfl rfl rfl hk hr hj

/-- The corresponding step of the validator list alone. -/
theorem ResultView.vm' {minV : Nat} {E : EPar} {p : Option Validators.Entry} {c c' : Chain} {tx : Nat} {mine ok : Bool}
    (h : ResultView E p c tx mine ok c') : ∃ x, Validators.View minV p c.vm x c'.vm ∧ ∀ a k d b1 b2 b3 b4, x ≠ .add a k d b1 b2 b3 b4 := by
  cases h with
  | ignored _ => exact ⟨.otherPublish, .same, by simp⟩
  | refused _ _ _ _ _ _ => exact ⟨.otherPublish, .same, by simp⟩
  | failReg e k hp ht hm ho hk hr =>
    subst ht
    exact ⟨.bridgeDropped e.tx true, .failReg e k (Or.inr rfl) hp hk hr, by simp⟩
  | failRes e hp ht hm ho hk =>
    subst ht
    exact ⟨.bridgeDropped e.tx true, .failRes e (Or.inr rfl) hp hk, by simp⟩
  | joined e s' hp ht hm ho hk hj =>
    subst ht
    exact ⟨.bridgeResult e.tx true true true, .joined e rfl hp hk, by simp⟩
  | left e k s' hp ht hm ho hk hr hj =>
    subst ht
    exact ⟨.bridgeResult e.tx true true true, .left e k rfl hp hk hr, by simp⟩

theorem ResultView.vm {minV : Nat} {E : EPar} {p : Option Validators.Entry} {c c' : Chain} {tx : Nat} {mine ok : Bool}
    (h : ResultView E p c tx mine ok c') : ∃ x, Validators.View minV p c.vm x c'.vm :=
  let ⟨x, hx, _⟩ := h.vm' (minV := minV)
  ⟨x, hx⟩

/-! ### Agreement after each change of the validator list -/

theorem Agree.record {vm : Validators.State} {st : Nat → Standing} (h : Agree vm st) (hi : ∀ e ∈ vm.actions, e.ingress ≤ vm.ingress)
    (a : Nat) (k : Validators.Kind) (hk : k = .registration → st a = .out) (d : Nat → Option Nat) (ks r : Nat → Option Nat) :
    Agree (Validators.recordAction { vm with deposits := d, keys := ks, rev := r } a k) st := by
  refine h.frame (fun _ => Iff.rfl) ?_ ?_
  · intro e
    unfold Going
    simp only [Validators.recordAction, List.mem_cons]
    constructor
    · rintro ⟨rfl | h1, h2, h3⟩
      · cases h2
      · exact ⟨(Validators.mem_dropAction.1 h1).1, h2, h3⟩
    · rintro ⟨h1, h2, h3⟩
      refine ⟨Or.inr (Validators.mem_dropAction.2 ⟨h1, ?_⟩), h2, h3⟩
      intro hk
      have := hi e h1
      simp only [Validators.ekey, Prod.mk.injEq] at hk
      omega
  · intro e he hs hkk
    simp only [Validators.recordAction, List.mem_cons] at he
    rcases he with rfl | he
    · exact hk hkk
    · exact h.wait e (Validators.mem_dropAction.1 he).1 hs hkk

/-- Dropping the entry in flight. -/
theorem Agree.dropPending {minV : Nat} {e : Validators.Entry} {vm vm' : Validators.State} {st : Nat → Standing} (h : Agree vm st)
    (hi : Validators.Inv minV (some e) vm) (hv : vm'.validators = vm.validators)
    (ha : vm'.actions = Validators.dropAction vm.actions e.account e.ingress) : Agree vm' st := by
  have he := (hi.pend e).mpr rfl
  refine h.frame (fun a => by rw [hv]) ?_ ?_
  · intro x
    have := going_drop hi.uniq he.1 (by rw [he.2]; decide) x
    unfold Going at this ⊢
    rw [ha]
    exact this
  · intro x hx hs hk
    rw [ha] at hx
    exact h.wait x (Validators.mem_dropAction.1 hx).1 hs hk

/-- The change in flight after an entry was changed: only the entry in flight was awaiting. -/
theorem Agree.joined {minV : Nat} {e : Validators.Entry} {vm : Validators.State} {st st' : Nat → Standing} (h : Agree vm st)
    (hi : Validators.Inv minV (some e) vm) (hk : e.kind = .registration) (tx : Nat) (ha : st' e.account = .member)
    (ho : ∀ a, a ≠ e.account → st' a = st a) : Agree (Validators.joined vm tx e.account e.ingress) st' := by
  have he := (hi.pend e).mpr rfl
  have hout := h.wait e he.1 he.2 hk
  have hg : ∀ x, Going (Validators.joined vm tx e.account e.ingress) x ↔ Going vm x := by
    intro x
    unfold Going
    simp only [Validators.joined, Validators.setAction, List.mem_map]
    constructor
    · rintro ⟨⟨y, hy, rfl⟩, h2, h3⟩
      by_cases hc : (y.account == e.account && y.ingress == e.ingress) = true
      · rw [if_pos hc] at h3; cases h3
      · rw [if_neg hc] at h2 h3 ⊢; exact ⟨hy, h2, h3⟩
    · rintro ⟨h1, h2, h3⟩
      refine ⟨⟨x, h1, ?_⟩, h2, h3⟩
      rw [if_neg]
      intro hc
      have : x = e := by
        refine Validators.eq_of_ekey hi.uniq h1 he.1 ?_
        simp at hc
        simp [Validators.ekey, hc]
      subst this
      rw [he.2] at h2; cases h2
  have hgo : ∀ x, Going vm x → x.account ≠ e.account := by
    intro x hx ea
    obtain ⟨w, hw⟩ := h.exit x hx
    rw [ea, hout] at hw
    cases hw
  refine ⟨?_, ?_, ?_, ?_, ?_⟩
  · intro a
    show a ∈ vm.validators ++ [e.account] ↔ _
    rw [List.mem_append, List.mem_singleton]
    by_cases ea : a = e.account
    · subst ea; simp [ha]
    · rw [ho a ea, ← h.reg]; simp [ea]
  · intro a w haw
    by_cases ea : a = e.account
    · subst ea; rw [ha] at haw; cases haw
    · rw [ho a ea] at haw
      obtain ⟨x, h1, h2⟩ := h.leav a w haw
      exact ⟨x, (hg x).2 h1, h2⟩
  · intro x hx
    have hx' := (hg x).1 hx
    rw [ho _ (hgo x hx')]
    exact h.exit x hx'
  · intro x y hx hy; exact h.one x y ((hg x).1 hx) ((hg y).1 hy)
  · intro x hx hs hk'
    have := (hi.map_pend (fun e' => if e'.account == e.account && e'.ingress == e.ingress then
      { e' with status := .actioned, kind := .activation } else e') (by intro e'; split <;> rfl) x).1 ⟨hx, hs⟩
    cases this

theorem Agree.left {minV : Nat} {e : Validators.Entry} {vm : Validators.State} {st st' : Nat → Standing} (h : Agree vm st)
    (hi : Validators.Inv minV (some e) vm) (hk : e.kind = .resignation) (tx k w : Nat) (ha : st' e.account = .leaving w)
    (hm : st e.account = .member) (ho : ∀ a, a ≠ e.account → st' a = st a) : Agree (Validators.left vm tx e.account e.ingress k) st' := by
  have he := (hi.pend e).mpr rfl
  have hg : ∀ x, Going (Validators.left vm tx e.account e.ingress k) x ↔ Going vm x ∨ x = { e with status := .actioned } := by
    intro x
    unfold Going
    simp only [Validators.left, List.mem_map]
    constructor
    · rintro ⟨⟨y, hy, rfl⟩, h2, h3⟩
      by_cases hc : (y.account == e.account && y.ingress == e.ingress) = true
      · rw [if_pos hc]
        have : y = e := by
          refine Validators.eq_of_ekey hi.uniq hy he.1 ?_
          simp at hc
          simp [Validators.ekey, hc]
        subst this
        exact Or.inr rfl
      · rw [if_neg hc] at h2 h3 ⊢; exact Or.inl ⟨hy, h2, h3⟩
    · rintro (⟨h1, h2, h3⟩ | rfl)
      · refine ⟨⟨x, h1, ?_⟩, h2, h3⟩
        rw [if_neg]
        intro hc
        have : x = e := by
          refine Validators.eq_of_ekey hi.uniq h1 he.1 ?_
          simp at hc
          simp [Validators.ekey, hc]
        subst this
        rw [he.2] at h2; cases h2
      · exact ⟨⟨e, he.1, by simp⟩, rfl, hk⟩
  have hgo : ∀ x, Going vm x → x.account ≠ e.account := by
    intro x hx ea
    obtain ⟨w, hw⟩ := h.exit x hx
    rw [ea, hm] at hw
    cases hw
  refine ⟨?_, ?_, ?_, ?_, ?_⟩
  · intro a
    show a ∈ vm.validators.filter (fun v => v != e.account) ↔ _
    rw [List.mem_filter]
    by_cases ea : a = e.account
    · subst ea; simp [ha]
    · rw [ho a ea, ← h.reg]; simp [ea]
  · intro a w haw
    by_cases ea : a = e.account
    · subst ea; exact ⟨{ e with status := .actioned }, (hg _).2 (Or.inr rfl), rfl⟩
    · rw [ho a ea] at haw
      obtain ⟨x, h1, h2⟩ := h.leav a w haw
      exact ⟨x, (hg x).2 (Or.inl h1), h2⟩
  · intro x hx
    rcases (hg x).1 hx with hx' | rfl
    · rw [ho _ (hgo x hx')]; exact h.exit x hx'
    · exact ⟨w, ha⟩
  · intro x y hx hy exy
    rcases (hg x).1 hx with hx' | rfl <;> rcases (hg y).1 hy with hy' | rfl
    · exact h.one x y hx' hy' exy
    · exact absurd exy (hgo x hx')
    · exact absurd exy.symm (hgo y hy')
    · rfl
  · intro x hx hs hk'
    have := (hi.map_pend (fun e' => if e'.account == e.account && e'.ingress == e.ingress then
      { e' with status := .actioned } else e') (by intro e'; split <;> rfl) x).1 ⟨hx, hs⟩
    cases this

/-- A confirmed removal is never refused by staking. -/
theorem scheduleLeave_some {s : St} {a : Nat} (h : standing s a = .member) : ∃ s', Staking.scheduleLeave s a s.pool.length = some s' := by
  obtain ⟨r, h1, h2⟩ := standing_member.1 h
  unfold Staking.scheduleLeave Staking.Info.scheduleLeave
  rw [h1]
  dsimp only
  rw [if_neg (by rw [h2]; decide)]
  dsimp only
  rw [if_neg (Nat.lt_irrefl _)]
  exact ⟨_, rfl⟩

theorem scheduleLeave_standing {P : Staking.Par} {s s' : St} (h : Inv P s) {a hint : Nat} (ho : Staking.scheduleLeave s a hint = some s') :
    standing s' a = .leaving (s.era + s.delay) ∧ standing s a = .member ∧ (∀ d, d ≠ a → standing s' d = standing s d) ∧ Staking.SameP s s' := by
  obtain ⟨r, h1, h2⟩ := Staking.scheduleLeave_ok h.g ho
  refine ⟨standing_leaving.2 ⟨_, h2.at, rfl⟩, standing_member.2 ⟨r, h2.was, h1⟩, ?_, h2.same⟩
  intro d hd
  exact standing_congr (by rw [h2.now, upd_ne _ _ hd])

theorem join_standing {P : Staking.Par} (hP : P.Ok) {s s' : St} (h : Inv P s) {a bond hint : Nat} {reg : Bool}
    (ho : Staking.joinCandidates P s a bond hint reg = some s') :
    standing s' a = .member ∧ (∀ d, d ≠ a → standing s' d = standing s d) ∧ Staking.SameP s s' := by
  have hj := Staking.join_ok hP h.g ho
  refine ⟨standing_member.2 ⟨_, by rw [hj.now, upd_same], rfl⟩, ?_, hj.same⟩
  intro d hd
  exact standing_congr (by rw [hj.now, upd_ne _ _ hd])

theorem ResultView.agree {minV : Nat} {E : EPar} (hE : E.Sane) {p : Option Validators.Entry} {c c' : Chain} {tx : Nat} {mine ok : Bool}
    (hi : Validators.Inv minV p c.vm) (hs : Inv E.par c.stk.led) (ha : Agree c.vm (standing c.stk.led))
    (h : ResultView E p c tx mine ok c') : Agree c'.vm (standing c'.stk.led) := by
  cases h with
  | ignored _ => exact ha
  | refused _ _ _ _ _ _ => exact ha
  | failReg e k hp ht hm ho hk hr => subst hp; exact ha.dropPending hi rfl rfl
  | failRes e hp ht hm ho hk => subst hp; exact ha.dropPending hi rfl rfl
  | joined e s' hp ht hm ho hk hj =>
    subst hp
    obtain ⟨h1, h2, _⟩ := join_standing hE.par.ok hs hj
    exact ha.joined hi hk tx h1 h2
  | left e k s' hp ht hm ho hk hr hj =>
    subst hp
    obtain ⟨h1, h2, h3, _⟩ := scheduleLeave_standing hs hj
    exact ha.left hi hk tx k _ h1 h2 h3

/-! ### Exits take place -/

theorem visitOne_back (active : List Nat) (vm : Validators.State) (s : St) (a i : Nat) (x : Validators.Entry)
    (hx : x ∈ (visitOne active vm s a i).1.actions) (hs : x.status = .actioned) : x ∈ vm.actions := by
  have set : ∀ k, x ∈ Validators.setAction vm.actions a i .confirmed k → x ∈ vm.actions := by
    intro k hx
    simp only [Validators.setAction, List.mem_map] at hx
    obtain ⟨y, hy, rfl⟩ := hx
    by_cases hc : (y.account == a && y.ingress == i) = true
    · rw [if_pos hc] at hs; cases hs
    · rw [if_neg hc]; exact hy
  unfold visitOne at hx
  cases hg : Validators.getAction vm a i with
  | none => rw [hg] at hx; exact hx
  | some e =>
  rw [hg] at hx
  dsimp only at hx
  by_cases c1 : e.status = .actioned ∧ e.kind = .resignation
  · rw [if_pos c1] at hx
    by_cases c : a ∈ active
    · rw [if_pos c] at hx; exact hx
    rw [if_neg c] at hx
    cases he : exitStaking s a with
    | none => rw [he] at hx; exact hx
    | some s' => rw [he] at hx; exact set _ hx
  rw [if_neg c1] at hx
  by_cases c2 : e.status = .actioned ∧ e.kind = .activation
  · rw [if_pos c2] at hx
    by_cases c : a ∈ active
    · rw [if_pos c] at hx; exact set _ hx
    · rw [if_neg c] at hx; exact hx
  rw [if_neg c2] at hx
  by_cases c3 : e.status = .confirmed
  · rw [if_pos c3] at hx; exact (Validators.mem_dropAction.1 hx).1
  · rw [if_neg c3] at hx; exact hx

theorem visitOne_keeps (active : List Nat) (vm : Validators.State) (s : St) (a i : Nat) (x : Validators.Entry)
    (hx : x ∈ vm.actions) (hk : Validators.ekey x ≠ (a, i)) : x ∈ (visitOne active vm s a i).1.actions := by
  have hne : (x.account == a && x.ingress == i) ≠ true := by
    intro hc
    simp at hc
    exact hk (by simp [Validators.ekey, hc])
  have set : ∀ k, x ∈ Validators.setAction vm.actions a i .confirmed k := by
    intro k
    simp only [Validators.setAction, List.mem_map]
    exact ⟨x, hx, by rw [if_neg hne]⟩
  unfold visitOne
  cases hg : Validators.getAction vm a i with
  | none => exact hx
  | some e =>
  dsimp only
  by_cases c1 : e.status = .actioned ∧ e.kind = .resignation
  · rw [if_pos c1]
    by_cases c : a ∈ active
    · rw [if_pos c]; exact hx
    rw [if_neg c]
    cases he : exitStaking s a with
    | none => exact hx
    | some s' => exact set _
  rw [if_neg c1]
  by_cases c2 : e.status = .actioned ∧ e.kind = .activation
  · rw [if_pos c2]
    by_cases c : a ∈ active
    · rw [if_pos c]; exact set _
    · rw [if_neg c]; exact hx
  rw [if_neg c2]
  by_cases c3 : e.status = .confirmed
  · rw [if_pos c3]; exact Validators.mem_dropAction.2 ⟨hx, hk⟩
  · rw [if_neg c3]; exact hx

/-- The loop goes on unless an activated account has no Ethereum key. -/
theorem visitOne_goesOn (active : List Nat) (vm : Validators.State) (s : St) (a i : Nat)
    (h : ∀ x ∈ vm.actions, x.status = .actioned → x.kind = .activation → (vm.rev x.account).isSome = true) :
    (visitOne active vm s a i).2.2 = true := by
  unfold visitOne
  cases hg : Validators.getAction vm a i with
  | none => rfl
  | some e =>
  obtain ⟨he, hk⟩ := Validators.getAction_some hg
  simp only [Validators.ekey, Prod.mk.injEq] at hk
  obtain ⟨rfl, rfl⟩ := hk
  dsimp only
  by_cases c1 : e.status = .actioned ∧ e.kind = .resignation
  · rw [if_pos c1]
    by_cases c : e.account ∈ active
    · rw [if_pos c]
    rw [if_neg c]
    cases hx : exitStaking s e.account with
    | none => rfl
    | some s' => rfl
  rw [if_neg c1]
  by_cases c2 : e.status = .actioned ∧ e.kind = .activation
  · rw [if_pos c2]
    by_cases c : e.account ∈ active
    · rw [if_pos c]; exact h e he c2.1 c2.2
    · rw [if_neg c]
  rw [if_neg c2]
  by_cases c3 : e.status = .confirmed
  · rw [if_pos c3]
  · rw [if_neg c3]

theorem visitAll_exits {P : Staking.Par} (hP : P.Ok) (hm : 1 ≤ P.maxPer) (active : List Nat) (a : Nat) (ha : a ∉ active) :
    ∀ (visit : List (Nat × Nat)) (vm : Validators.State) (s : St), (vm.actions.map Validators.ekey).Nodup →
      (∀ e ∈ vm.actions, e.ingress ≤ vm.ingress) → Inv P s →
      (∀ x ∈ vm.actions, x.status = .actioned → x.kind = .activation → (vm.rev x.account).isSome = true) →
      (s.cands a = none ∨ ∃ e w, Going vm e ∧ e.account = a ∧ Validators.ekey e ∈ visit ∧ standing s a = .leaving w ∧ w ≤ s.era) →
      (visitAll active visit vm s).2.cands a = none
  | [], vm, s, _, _, _, _, hg => by
    rcases hg with hg | ⟨e, w, _, _, h, _⟩
    · exact hg
    · cases h
  | (b, i) :: rest, vm, s, hu, hi, h, hn, hg => by
    have h1 := visitOne_ok hP hm active hu hi h b i
    have hgo := visitOne_goesOn active vm s b i hn
    have hback := visitOne_back active vm s b i
    have hkeep := visitOne_keeps active vm s b i
    have hexit : ∀ e w, Going vm e → e.account = a → Validators.ekey e = (b, i) → standing s a = .leaving w → w ≤ s.era →
        (visitOne active vm s b i).2.1.cands a = none := by
      intro e w g1 g2 g3 g4 g5
      obtain ⟨s', hs'⟩ := exitStaking_some hP h g4 g5
      have hge : Validators.getAction vm b i = some e := by
        have := Validators.getAction_of_mem hu g1.1
        have e1 : e.account = b := congrArg Prod.fst g3
        have e2 : e.ingress = i := congrArg Prod.snd g3
        rw [e1, e2] at this
        exact this
      have eb : b = a := by rw [← g2]; exact (congrArg Prod.fst g3).symm
      subst eb
      unfold visitOne
      rw [hge]
      dsimp only
      rw [if_pos g1.2, if_neg ha, hs']
      exact (exitStaking_ok hP hm h hs').2.2.1
    unfold visitAll
    generalize visitOne active vm s b i = r at h1 hgo hback hkeep hexit
    obtain ⟨vm', s', g⟩ := r
    dsimp only at h1 hgo hback hkeep hexit ⊢
    subst hgo
    have hing : ∀ e ∈ vm'.actions, e.ingress ≤ vm'.ingress := by
      intro e he
      have := h1.same.ing e he
      have e2 : vm'.ingress = vm.ingress := by rw [h1.same.eq]
      rw [e2]; exact this
    have hrev : vm'.rev = vm.rev := by rw [h1.same.eq]
    refine visitAll_exits hP hm active a ha rest vm' s' h1.same.uniq hing h1.inv ?_ ?_
    · intro x hx hs hk
      rw [hrev]; exact hn x (hback x hx hs) hs hk
    · rcases hg with hg | ⟨e, w, g1, g2, g3, g4, g5⟩
      · left
        rcases h1.cands a with q | q
        · exact q.trans hg
        · exact q.gone
      · by_cases hk : Validators.ekey e = (b, i)
        · exact Or.inl (hexit e w g1 g2 hk g4 g5)
        · rcases h1.cands a with q | q
          · refine Or.inr ⟨e, w, ⟨hkeep e g1.1 hk, g1.2⟩, g2, ?_, by rw [standing_congr q]; exact g4, by rw [h1.par.era]; exact g5⟩
            rcases List.mem_cons.1 g3 with g3 | g3
            · exact absurd g3 hk
            · exact g3
          · exact Or.inl q.gone

end Verif.Membership
