import Verif.Model.Membership
import Verif.Lemmas.Validators
import Verif.Props.StakingEra

/-! # Membership: how the validator list and the staking candidates follow each other -/

namespace Verif.Membership

open Verif.Staking (EPar St Full EOp CRec Core Inv)

/-- Where an account stands among the staking candidates. -/
inductive Standing where
  | out | member | leaving (era : Nat)
deriving DecidableEq

/-- An account's standing. -/
def standing (s : St) (a : Nat) : Standing :=
  match s.cands a with
  | none => .out
  | some r =>
    match r.info.status with
    | .leaving w => .leaving w
    | _ => .member

theorem standing_out {s : St} {a : Nat} : standing s a = .out ↔ s.cands a = none := by
  unfold standing
  cases s.cands a with
  | none => simp
  | some r => dsimp only; cases r.info.status <;> simp

theorem standing_leaving {s : St} {a w : Nat} : standing s a = .leaving w ↔ ∃ r, s.cands a = some r ∧ r.info.status = .leaving w := by
  unfold standing
  cases s.cands a with
  | none => simp
  | some r => dsimp only; cases hs : r.info.status <;> simp [hs]

theorem standing_member {s : St} {a : Nat} : standing s a = .member ↔ ∃ r, s.cands a = some r ∧ r.info.isLeaving = false := by
  unfold standing Staking.Info.isLeaving
  cases s.cands a with
  | none => simp
  | some r => dsimp only; cases hs : r.info.status <;> simp [hs]

theorem standing_congr {s s' : St} {a : Nat} (h : s'.cands a = s.cands a) : standing s' a = standing s a := by
  unfold standing; rw [h]

theorem standing_of_status {s s' : St} {a : Nat} {r r' : CRec} (h : s.cands a = some r) (h' : s'.cands a = some r')
    (e : r'.info.status = r.info.status) : standing s' a = standing s a := by
  unfold standing; rw [h, h']; dsimp only; rw [e]

theorem eligible_member {s : St} {a x : Nat} (h : Staking.Eligible s a x) : standing s a = .member := by
  obtain ⟨r, h1, h2, _⟩ := h
  exact standing_member.2 ⟨r, h1, by unfold Staking.Info.isLeaving; rw [h2]⟩

/-- What the ledger keeps when nobody joins or leaves. -/
structure Quiet (s s' : St) : Prop where
  stand : ∀ a, standing s' a = standing s a
  era : s'.era = s.era
  delay : 1 ≤ s.delay → 1 ≤ s'.delay

theorem Quiet.refl (s : St) : Quiet s s := ⟨fun _ => rfl, rfl, id⟩

theorem Quiet.free (s : St) (f : Nat → Nat) : Quiet s { s with free := f } := ⟨fun _ => rfl, rfl, id⟩

/-- A call of a user does not change who is a candidate or leaving. -/
theorem call_quiet {E : EPar} (hE : E.Sane) {s s' : St} (h : Inv E.par s) {op : Staking.Op} (hu : userCall (.ledger op) = true)
    (ha : op.allowed E s = true) (ho : Staking.call E.par s op = some s') : Quiet s s' := by
  have hs := Staking.call_ok hE.par.ok hE.par.per.1 h ho
  refine ⟨?_, (Staking.call_pot hE.par.ok hE.par.per.1 h ha ho).2, ?_⟩
  · intro a
    cases hs.cand a with
    | absent h1 h2 => exact standing_congr (h2.trans h1.symm)
    | same r r' h1 h2 _ _ e => exact standing_of_status h1 h2 e
    | joined b hi g who => subst who; cases hu
    | status who r r' h1 h2 _ _ st =>
      have hm' : standing s' a = .member := standing_member.2 ⟨r', h2, st⟩
      rw [hm']
      symm
      refine standing_member.2 ⟨r, h1, ?_⟩
      rcases who with ⟨hi, who⟩ | who | who
      · subst who; cases hu
      · subst who
        have ho : Staking.goOffline s a = some s' := ho
        unfold Staking.goOffline at ho
        rw [h1] at ho
        dsimp only at ho
        by_cases hc : r.info.isActive = false
        · rw [if_pos hc] at ho; cases ho
        · unfold Staking.Info.isActive at hc
          unfold Staking.Info.isLeaving
          cases hst : r.info.status with
          | active => rfl
          | idle => rfl
          | leaving w => rw [hst] at hc; exact absurd rfl hc
      · subst who
        have ho : Staking.goOnline E.par s a = some s' := ho
        unfold Staking.goOnline at ho
        rw [h1] at ho
        dsimp only at ho
        by_cases hc : r.info.isActive = true ∨ r.info.isLeaving = true
        · rw [if_pos hc] at ho; cases ho
        · cases hl : r.info.isLeaving with
          | false => rfl
          | true => exact absurd (Or.inr hl) hc
    | leaving hi who => subst who; cases hu
    | left hi who => subst who; cases hu
    | more k who r r' h1 h2 _ _ e => exact standing_of_status h1 h2 e
    | unbondScheduled k who r r' h1 h2 _ _ _ e => exact standing_of_status h1 h2 e
    | unbondExecuted who r r' q h1 h2 _ _ _ _ e => exact standing_of_status h1 h2 e
    | unbondCancelled who r r' h1 h2 _ _ _ e => exact standing_of_status h1 h2 e
  · intro hd
    rcases hs.delay with e | ⟨d, _, h1, e⟩
    · rw [e]; exact hd
    · rw [e]; exact h1

/-- The same for every step of staking a user or the administrator can make; the selected collators stay too. -/
theorem user_quiet {E : EPar} (hE : E.Sane) {F : Full} (h : Core E F) {op : EOp} (hu : userCall op = true) :
    Quiet F.led (Staking.eStep E F op).led ∧ (Staking.eStep E F op).selected = F.selected ∧
      (1 ≤ E.minSelected → 1 ≤ F.totalSelected → 1 ≤ (Staking.eStep E F op).totalSelected) := by
  unfold Staking.eStep
  cases ho : Staking.eCall E F op with
  | none => exact ⟨Quiet.refl _, rfl, fun _ e => e⟩
  | some F' =>
  show Quiet F.led F'.led ∧ F'.selected = F.selected ∧ (1 ≤ E.minSelected → 1 ≤ F.totalSelected → 1 ≤ F'.totalSelected)
  cases op with
  | block pub now a p => cases hu
  | ledger op =>
    have ho : (if op.allowed E F.led then (Staking.call E.par F.led op).map (fun s => { F with led := s }) else none) = some F' := ho
    by_cases ha : op.allowed E F.led = true
    · rw [if_pos ha] at ho
      cases hc : Staking.call E.par F.led op with
      | none => rw [hc] at ho; cases ho
      | some s =>
        rw [hc] at ho
        have ho : some { F with led := s } = some F' := ho
        injection ho with ho
        subst ho
        exact ⟨call_quiet hE h.led hu ha hc, rfl, fun _ e => e⟩
    · rw [if_neg ha] at ho; cases ho
  | setTotalSelected v =>
    have ho : Staking.setTotalSelected E F v = some F' := ho
    unfold Staking.setTotalSelected at ho
    by_cases hc : E.minSelected ≤ v ∧ F.totalSelected ≠ v ∧ v ≤ F.length
    · rw [if_pos hc] at ho; injection ho with ho; subst ho; exact ⟨Quiet.refl _, rfl, fun e _ => Nat.le_trans e hc.1⟩
    · rw [if_neg hc] at ho; cases ho
  | setBlocksPerEra v =>
    have ho : Staking.setBlocksPerEra E F v = some F' := ho
    unfold Staking.setBlocksPerEra at ho
    by_cases hc : E.minBlocks ≤ v ∧ F.length ≠ v ∧ F.totalSelected ≤ v
    · rw [if_pos hc] at ho; injection ho with ho; subst ho; exact ⟨Quiet.refl _, rfl, fun _ e => e⟩
    · rw [if_neg hc] at ho; cases ho
  | forceEra =>
    have ho : some { F with force := true } = some F' := ho
    injection ho with ho; subst ho; exact ⟨Quiet.refl _, rfl, fun _ e => e⟩
  | bridgeResult tx ok =>
    have ho : some (Staking.bridgeResult F tx ok) = some F' := ho
    injection ho with ho
    subst ho
    unfold Staking.bridgeResult
    cases F.published tx with
    | none => exact ⟨Quiet.refl _, rfl, fun _ e => e⟩
    | some p => exact ⟨Quiet.refl _, rfl, fun _ e => e⟩
  | growthLifted amount period =>
    have ho : some (Staking.payoutGrowth E F amount period).1 = some F' := ho
    injection ho with ho
    subst ho
    have hg := (Staking.payoutGrowth_ok E F amount period).1
    generalize Staking.payoutGrowth E F amount period = r at hg ⊢
    obtain ⟨G, b⟩ := r
    dsimp only at hg ⊢
    cases hg with
    | refused _ e => rw [e]; exact ⟨Quiet.refl _, rfl, fun _ e => e⟩
    | failed _ f e => rw [e]; exact ⟨Quiet.free _ f, rfl, fun _ e => e⟩
    | done _ f e => rw [e]; exact ⟨Quiet.free _ f, rfl, fun _ e => e⟩

/-! ### Agreement of the two registers -/

/-- A removal that Ethereum confirmed and whose exit from staking is still to come. -/
def Going (vm : Validators.State) (e : Validators.Entry) : Prop := e ∈ vm.actions ∧ e.status = .actioned ∧ e.kind = .resignation

/-- The validator list and the staking candidates agree. -/
structure Agree (vm : Validators.State) (st : Nat → Standing) : Prop where
  reg : ∀ a, a ∈ vm.validators ↔ st a = .member
  leav : ∀ a w, st a = .leaving w → ∃ e, Going vm e ∧ e.account = a
  exit : ∀ e, Going vm e → ∃ w, st e.account = .leaving w
  one : ∀ e e', Going vm e → Going vm e' → e.account = e'.account → e = e'
  wait : ∀ e ∈ vm.actions, e.status = .awaiting → e.kind = .registration → st e.account = .out

/-- Nothing that matters changed. -/
theorem Agree.frame {vm vm' : Validators.State} {st : Nat → Standing} (h : Agree vm st) (hv : ∀ a, a ∈ vm'.validators ↔ a ∈ vm.validators)
    (hg : ∀ e, Going vm' e ↔ Going vm e)
    (hw : ∀ e ∈ vm'.actions, e.status = .awaiting → e.kind = .registration → st e.account = .out) : Agree vm' st := by
  refine ⟨fun a => (hv a).trans (h.reg a), ?_, fun e he => h.exit e ((hg e).1 he), fun e e' he he' => h.one e e' ((hg e).1 he) ((hg e').1 he'), hw⟩
  intro a w ha
  obtain ⟨e, h1, h2⟩ := h.leav a w ha
  exact ⟨e, (hg e).2 h1, h2⟩

theorem Agree.stand {vm : Validators.State} {st st' : Nat → Standing} (h : Agree vm st) (e : ∀ a, st' a = st a) : Agree vm st' := by
  have : st' = st := funext e
  rw [this]; exact h

/-- Setting the status of one entry to confirmed: the entry no longer counts, the others do. -/
theorem going_set {vm : Validators.State} (hu : (vm.actions.map Validators.ekey).Nodup) {e : Validators.Entry} (he : e ∈ vm.actions)
    (x : Validators.Entry) :
    Going { vm with actions := Validators.setAction vm.actions e.account e.ingress .confirmed e.kind } x ↔ Going vm x ∧ x ≠ e := by
  unfold Going
  simp only [Validators.setAction, List.mem_map]
  constructor
  · rintro ⟨⟨y, hy, rfl⟩, h2, h3⟩
    by_cases hc : (y.account == e.account && y.ingress == e.ingress) = true
    · rw [if_pos hc] at h2; cases h2
    · rw [if_neg hc] at h2 h3 ⊢
      refine ⟨⟨hy, h2, h3⟩, ?_⟩
      rintro rfl
      exact hc (by simp)
  · rintro ⟨⟨h1, h2, h3⟩, h4⟩
    refine ⟨⟨x, h1, ?_⟩, h2, h3⟩
    rw [if_neg]
    intro hc
    refine h4 (Validators.eq_of_ekey hu h1 he ?_)
    simp at hc
    simp [Validators.ekey, hc]

theorem awaiting_set {vm : Validators.State} {a i : Nat} {k : Validators.Kind} {x : Validators.Entry}
    (hx : x ∈ Validators.setAction vm.actions a i .confirmed k) (hs : x.status = .awaiting) : x ∈ vm.actions := by
  simp only [Validators.setAction, List.mem_map] at hx
  obtain ⟨y, hy, rfl⟩ := hx
  by_cases hc : (y.account == a && y.ingress == i) = true
  · rw [if_pos hc] at hs; cases hs
  · rw [if_neg hc]; exact hy

theorem going_drop {vm : Validators.State} (hu : (vm.actions.map Validators.ekey).Nodup) {e : Validators.Entry} (he : e ∈ vm.actions)
    (hs : e.status ≠ .actioned) (x : Validators.Entry) :
    Going { vm with actions := Validators.dropAction vm.actions e.account e.ingress } x ↔ Going vm x := by
  unfold Going
  constructor
  · rintro ⟨h1, h2, h3⟩; exact ⟨(Validators.mem_dropAction.1 h1).1, h2, h3⟩
  · rintro ⟨h1, h2, h3⟩
    refine ⟨Validators.mem_dropAction.2 ⟨h1, ?_⟩, h2, h3⟩
    intro hk
    rw [Validators.eq_of_ekey hu h1 he hk] at h2
    exact hs h2

/-! ### Visiting the entries at a new session -/

/-- The exit of a leaving candidate. -/
structure Exit (active : List Nat) (s s' : St) (a : Nat) : Prop where
  was : ∃ w, standing s a = .leaving w ∧ w ≤ s.era
  idle : a ∉ active
  gone : s'.cands a = none

/-- What visiting entries does. -/
structure Visited (P : Staking.Par) (active : List Nat) (vm : Validators.State) (s : St) (vm' : Validators.State) (s' : St) : Prop where
  same : Validators.SameButDone vm vm'
  inv : Inv P s'
  par : Staking.SameP s s'
  cands : ∀ a, s'.cands a = s.cands a ∨ Exit active s s' a
  agree : Agree vm (standing s) → Agree vm' (standing s')

theorem Visited.refl {P : Staking.Par} (active : List Nat) {vm : Validators.State} {s : St} (hu : (vm.actions.map Validators.ekey).Nodup)
    (hi : ∀ e ∈ vm.actions, e.ingress ≤ vm.ingress) (h : Inv P s) : Visited P active vm s vm s :=
  ⟨.refl hu hi, h, .refl s, fun _ => Or.inl rfl, id⟩

theorem Visited.trans {P : Staking.Par} {active : List Nat} {vm vm1 vm2 : Validators.State} {s s1 s2 : St}
    (h : Visited P active vm s vm1 s1) (g : Visited P active vm1 s1 vm2 s2) : Visited P active vm s vm2 s2 := by
  refine ⟨h.same.trans g.same, g.inv, h.par.trans g.par, ?_, fun e => g.agree (h.agree e)⟩
  intro a
  rcases h.cands a with e | e <;> rcases g.cands a with e' | e'
  · exact Or.inl (e'.trans e)
  · obtain ⟨w, h1, h2⟩ := e'.was
    exact Or.inr ⟨⟨w, by rw [← standing_congr e]; exact h1, by rw [← h.par.era]; exact h2⟩, e'.idle, e'.gone⟩
  · exact Or.inr ⟨e.was, e.idle, e'.trans e.gone⟩
  · exact Or.inr ⟨e.was, e.idle, e'.gone⟩

/-- Leaving works when it is due. -/
theorem exitStaking_some {P : Staking.Par} (hP : P.Ok) {s : St} (h : Inv P s) {a w : Nat} (hs : standing s a = .leaving w) (hw : w ≤ s.era) :
    ∃ s', exitStaking s a = some s' := by
  obtain ⟨r, h1, h2⟩ := standing_leaving.1 hs
  unfold exitStaking
  rw [h1]
  dsimp only
  unfold Staking.executeLeave
  rw [h1]
  dsimp only
  rw [if_neg (Nat.lt_irrefl _)]
  have hc : ¬ r.info.canLeave s.era = false := by
    unfold Staking.Info.canLeave; rw [h2]; simp; exact hw
  rw [if_neg hc]
  obtain ⟨s1, f1, _⟩ := Staking.returnStake_fold hP a (r.top.list ++ r.bottom.list) s h.g.n (h.g.c.inv a r h1).uniq
    (by intro b hb; exact (h.g.link _ _ _).1 ⟨r, h1, hb⟩)
  rw [f1]
  exact ⟨_, rfl⟩

theorem exitStaking_ok {P : Staking.Par} (hP : P.Ok) (hm : 1 ≤ P.maxPer) {s s' : St} (h : Inv P s) {a : Nat} (ho : exitStaking s a = some s') :
    Inv P s' ∧ Staking.SameP s s' ∧ s'.cands a = none ∧ (∀ d, d ≠ a → s'.cands d = s.cands d) ∧ ∃ w, standing s a = .leaving w ∧ w ≤ s.era := by
  unfold exitStaking at ho
  cases hr : s.cands a with
  | none => rw [hr] at ho; cases ho
  | some r =>
    rw [hr] at ho
    dsimp only at ho
    obtain ⟨r', h1, h2⟩ := Staking.executeLeave_ok hP h.g ho
    rw [hr] at h1
    injection h1 with h1
    subst h1
    obtain ⟨w, h3, h4⟩ := h2.due
    exact ⟨(Staking.call_ok hP hm h (op := .executeLeave a r.info.count) ho).inv, h2.same, h2.gone, h2.others, w,
      standing_leaving.2 ⟨r, hr, h3⟩, h4⟩

theorem visitOne_ok {P : Staking.Par} (hP : P.Ok) (hm : 1 ≤ P.maxPer) (active : List Nat) {vm : Validators.State} {s : St}
    (hu : (vm.actions.map Validators.ekey).Nodup) (hi : ∀ e ∈ vm.actions, e.ingress ≤ vm.ingress) (h : Inv P s) (a i : Nat) :
    Visited P active vm s (visitOne active vm s a i).1 (visitOne active vm s a i).2.1 := by
  unfold visitOne
  cases hg : Validators.getAction vm a i with
  | none => exact .refl active hu hi h
  | some e =>
  obtain ⟨he, hk⟩ := Validators.getAction_some hg
  simp only [Validators.ekey, Prod.mk.injEq] at hk
  obtain ⟨rfl, rfl⟩ := hk
  dsimp only
  by_cases c1 : e.status = .actioned ∧ e.kind = .resignation
  · rw [if_pos c1]
    by_cases c : e.account ∈ active
    · rw [if_pos c]; exact .refl active hu hi h
    rw [if_neg c]
    cases hx : exitStaking s e.account with
    | none => exact .refl active hu hi h
    | some s' =>
      dsimp only
      obtain ⟨g1, g2, g3, g4, w, g5, g6⟩ := exitStaking_ok hP hm h hx
      have hst : e.status ≠ .awaiting := by rw [c1.1]; decide
      refine ⟨.set hu hi he hst _, g1, g2, ?_, ?_⟩
      · intro a
        by_cases ea : a = e.account
        · subst ea; exact Or.inr ⟨⟨w, g5, g6⟩, c, g3⟩
        · exact Or.inl (g4 a ea)
      · intro ag
        have key := going_set hu he
        have hother : ∀ a, a ≠ e.account → standing s' a = standing s a := fun a ha => standing_congr (g4 a ha)
        have hout : standing s' e.account = .out := standing_out.2 g3
        refine ⟨?_, ?_, ?_, ?_, ?_⟩
        · intro a
          show a ∈ vm.validators ↔ _
          rw [ag.reg]
          by_cases ea : a = e.account
          · subst ea; rw [hout, g5]; simp
          · rw [hother a ea]
        · intro a w' ha
          by_cases ea : a = e.account
          · subst ea; rw [hout] at ha; cases ha
          · rw [hother a ea] at ha
            obtain ⟨x, hx1, hx2⟩ := ag.leav a w' ha
            refine ⟨x, (key x).2 ⟨hx1, ?_⟩, hx2⟩
            rintro rfl
            exact ea hx2.symm
        · intro x hx
          obtain ⟨hx1, hx2⟩ := (key x).1 hx
          obtain ⟨w', hw'⟩ := ag.exit x hx1
          refine ⟨w', ?_⟩
          rw [hother]
          · exact hw'
          · intro ea; exact hx2 (ag.one x e hx1 ⟨he, c1⟩ ea)
        · intro x y hx hy; exact ag.one x y ((key x).1 hx).1 ((key y).1 hy).1
        · intro x hx hs hk'
          have := ag.wait x (awaiting_set hx hs) hs hk'
          by_cases ea : x.account = e.account
          · rw [ea]; exact hout
          · rw [hother _ ea]; exact this
  rw [if_neg c1]
  by_cases c2 : e.status = .actioned ∧ e.kind = .activation
  · rw [if_pos c2]
    by_cases c : e.account ∈ active
    · rw [if_pos c]
      have hst : e.status ≠ .awaiting := by rw [c2.1]; decide
      refine ⟨.set hu hi he hst _, h, .refl s, fun _ => Or.inl rfl, ?_⟩
      intro ag
      refine ag.frame (fun _ => Iff.rfl) ?_ ?_
      · intro x
        rw [going_set hu he]
        constructor
        · exact fun h => h.1
        · intro hx; refine ⟨hx, ?_⟩; rintro rfl; have := hx.2.2; rw [c2.2] at this; cases this
      · intro x hx hs hk'; exact ag.wait x (awaiting_set hx hs) hs hk'
    · rw [if_neg c]; exact .refl active hu hi h
  rw [if_neg c2]
  by_cases c3 : e.status = .confirmed
  · rw [if_pos c3]
    have hst : e.status ≠ .awaiting := by rw [c3]; decide
    have hst' : e.status ≠ .actioned := by rw [c3]; decide
    refine ⟨.drop hu hi he hst, h, .refl s, fun _ => Or.inl rfl, ?_⟩
    intro ag
    refine ag.frame (fun _ => Iff.rfl) (going_drop hu he hst') ?_
    intro x hx hs hk'; exact ag.wait x (Validators.mem_dropAction.1 hx).1 hs hk'
  · rw [if_neg c3]; exact .refl active hu hi h

theorem visitAll_ok {P : Staking.Par} (hP : P.Ok) (hm : 1 ≤ P.maxPer) (active : List Nat) :
    ∀ (visit : List (Nat × Nat)) (vm : Validators.State) (s : St), (vm.actions.map Validators.ekey).Nodup →
      (∀ e ∈ vm.actions, e.ingress ≤ vm.ingress) → Inv P s →
      Visited P active vm s (visitAll active visit vm s).1 (visitAll active visit vm s).2
  | [], vm, s, hu, hi, h => .refl active hu hi h
  | (a, i) :: rest, vm, s, hu, hi, h => by
    have h1 := visitOne_ok hP hm active hu hi h a i
    unfold visitAll
    generalize visitOne active vm s a i = r at h1
    obtain ⟨vm', s', b⟩ := r
    dsimp only at h1 ⊢
    have hing : ∀ e ∈ vm'.actions, e.ingress ≤ vm'.ingress := by
      intro e he
      have := h1.same.ing e he
      have e2 : vm'.ingress = vm.ingress := by rw [h1.same.eq]
      rw [e2]; exact this
    cases b with
    | true => exact h1.trans (visitAll_ok hP hm active rest vm' s' h1.same.uniq hing h1.inv)
    | false => exact h1

end Verif.Membership
