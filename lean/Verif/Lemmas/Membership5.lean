import Verif.Lemmas.Membership4

/-! # Membership: sessions and the list of authors -/

namespace Verif.Membership

open Verif.Staking (EPar St Full EOp CRec Core Inv Eligible BestChoice)

/-- What a step without a new session keeps; standings change only by a confirmed registration or removal. -/
structure Calm (E : EPar) (c c' : Chain) : Prop where
  queued : c'.queued = c.queued
  sess : c'.sessionVals = c.sessionVals
  changed : c'.changed = c.changed
  index : c'.index = c.index
  auth : c'.authors = c.authors
  sel : c'.stk.selected = c.stk.selected
  tot : 1 ≤ E.minSelected → 1 ≤ c.stk.totalSelected → 1 ≤ c'.stk.totalSelected
  era : c'.stk.led.era = c.stk.led.era
  delay : 1 ≤ c.stk.led.delay → 1 ≤ c'.stk.led.delay
  stand : ∀ a, standing c'.stk.led a = standing c.stk.led a ∨ standing c'.stk.led a = .member ∨
    standing c'.stk.led a = .leaving (c.stk.led.era + c.stk.led.delay)

theorem Calm.refl (E : EPar) (c : Chain) : Calm E c c := ⟨rfl, rfl, rfl, rfl, rfl, rfl, fun _ h => h, rfl, id, fun _ => Or.inl rfl⟩

theorem Calm.withVm (E : EPar) (c : Chain) (vm : Validators.State) : Calm E c { c with vm := vm } :=
  ⟨rfl, rfl, rfl, rfl, rfl, rfl, fun _ h => h, rfl, id, fun _ => Or.inl rfl⟩

/-- Every step is calm or starts a session. -/
theorem step_kind {E : EPar} (hE : E.Sane) {minV : Nat} {c : Chain} (h : MInv E minV c) (x : Step) :
    Calm E c (step E minV c x) ∨
      ∃ pub now author pick visit S era, x = .block pub now author pick visit ∧
        (Staking.shouldUpdate c.stk now = true ∨ c.stk.force = true) ∧ Rotation E c (step E minV c x) visit S era := by
  obtain ⟨⟨p, hv⟩, hc, ha⟩ := h
  cases x with
  | block pub now author pick visit =>
    obtain ⟨c', h1, h2⟩ := block_ok (pub := pub) hE hv hc now author pick visit
    have e : step E minV c (.block pub now author pick visit) = c' := by
      show (block E c pub now author pick visit).getD c = c'
      rw [h1]; rfl
    rw [e]
    rcases h2 with ⟨_, _, h2⟩ | ⟨hd, S, era, h2⟩
    · refine Or.inl ⟨by rw [h2.rest], by rw [h2.rest], by rw [h2.rest], by rw [h2.rest], by rw [h2.rest], h2.sel, ?_, h2.era, ?_, ?_⟩
      · intro _ q; rw [h2.tot]; exact q
      · intro q; rw [h2.delay]; exact q
      · intro a; exact Or.inl (standing_cands h2.cands a)
    · exact Or.inr ⟨pub, now, author, pick, visit, S, era, rfl, hd, h2⟩
  | staking op =>
    left
    show Calm E c (if userCall op then { c with stk := Staking.eStep E c.stk op } else c)
    by_cases hu : userCall op = true
    · rw [if_pos hu]
      obtain ⟨q, s, t⟩ := user_quiet hE hc hu
      exact ⟨rfl, rfl, rfl, rfl, rfl, s, t, q.era, q.delay, fun a => Or.inl (q.stand a)⟩
    · rw [if_neg hu]; exact Calm.refl E c
  | addCollator a k d ko bo => exact Or.inl (Calm.withVm E c _)
  | removeValidator a ko bo => exact Or.inl (Calm.withVm E c _)
  | rotateEthKey a old new => exact Or.inl (Calm.withVm E c _)
  | otherPublish => exact Or.inl (Calm.withVm E c _)
  | bridgeResult tx mine ok =>
    left
    show Calm E c (bridgeResult E c tx mine ok)
    have hw := bridgeResult_view E hv tx mine ok
    generalize bridgeResult E c tx mine ok = c' at hw
    cases hw with
    | ignored _ => exact Calm.refl E c
    | refused _ _ _ _ _ _ => exact Calm.refl E c
    | failReg e k hp ht hm ho hk hr => exact Calm.withVm E c _
    | failRes e hp ht hm ho hk => exact Calm.withVm E c _
    | joined e s' hp ht hm ho hk hj =>
      obtain ⟨h1, h2, h3⟩ := join_standing hE.par.ok hc.led hj
      refine ⟨rfl, rfl, rfl, rfl, rfl, rfl, fun _ q => q, h3.era, fun q => by show 1 ≤ s'.delay; rw [h3.delay]; exact q, ?_⟩
      intro a
      by_cases ea : a = e.account
      · subst ea; exact Or.inr (Or.inl h1)
      · exact Or.inl (h2 a ea)
    | left e k s' hp ht hm ho hk hr hj =>
      obtain ⟨h1, _, h2, h3⟩ := scheduleLeave_standing hc.led hj
      refine ⟨rfl, rfl, rfl, rfl, rfl, rfl, fun _ q => q, h3.era, fun q => by show 1 ≤ s'.delay; rw [h3.delay]; exact q, ?_⟩
      intro a
      by_cases ea : a = e.account
      · subst ea; exact Or.inr (Or.inr h1)
      · exact Or.inl (h2 a ea)
  | bridgeDropped tx mine => exact Or.inl (Calm.withVm E c _)
  | setKeys a k =>
    left
    show Calm E c (setKeys c a k)
    unfold setKeys
    by_cases hk : c.owner k = none ∨ c.owner k = some a
    · rw [if_pos hk]; exact ⟨rfl, rfl, rfl, rfl, rfl, rfl, fun _ h => h, rfl, id, fun _ => Or.inl rfl⟩
    · rw [if_neg hk]; exact Calm.refl E c
  | purgeKeys a =>
    left
    show Calm E c (purgeKeys c a)
    unfold purgeKeys
    cases c.keys a with
    | none => exact Calm.refl E c
    | some old => exact ⟨rfl, rfl, rfl, rfl, rfl, rfl, fun _ h => h, rfl, id, fun _ => Or.inl rfl⟩

/-! ### Session keys belong to one account -/

/-- The two maps of session keys are inverse to each other. -/
def KeysBij (c : Chain) : Prop := ∀ a k, c.keys a = some k ↔ c.owner k = some a

theorem step_keys {E : EPar} (hE : E.Sane) {minV : Nat} {c : Chain} (h : MInv E minV c) (hb : KeysBij c) (x : Step) :
    KeysBij (step E minV c x) := by
  have frame : ∀ c' : Chain, c'.keys = c.keys → c'.owner = c.owner → KeysBij c' := by
    intro c' h1 h2 a k; rw [h1, h2]; exact hb a k
  cases x with
  | block pub now author pick visit =>
    obtain ⟨⟨p, hv⟩, hc, _⟩ := h
    obtain ⟨c', h1, h2⟩ := block_ok (pub := pub) hE hv hc now author pick visit
    show KeysBij ((block E c pub now author pick visit).getD c)
    rw [h1]
    rcases h2 with ⟨_, _, h2⟩ | ⟨_, S, era, h2⟩
    · exact frame c' (by rw [h2.rest]) (by rw [h2.rest])
    · exact frame c' h2.keys h2.owner
  | staking op =>
    show KeysBij (if userCall op then { c with stk := Staking.eStep E c.stk op } else c)
    by_cases hu : userCall op = true
    · rw [if_pos hu]; exact frame _ rfl rfl
    · rw [if_neg hu]; exact hb
  | addCollator a k d ko bo => exact frame _ rfl rfl
  | removeValidator a ko bo => exact frame _ rfl rfl
  | rotateEthKey a old new => exact frame _ rfl rfl
  | otherPublish => exact frame _ rfl rfl
  | bridgeResult tx mine ok =>
    obtain ⟨⟨p, hv⟩, hc, _⟩ := h
    show KeysBij (bridgeResult E c tx mine ok)
    have hw := bridgeResult_view E hv tx mine ok
    generalize bridgeResult E c tx mine ok = c' at hw
    cases hw with
    | ignored _ => exact hb
    | refused _ _ _ _ _ _ => exact hb
    | failReg e k hp ht hm ho hk hr => exact frame _ rfl rfl
    | failRes e hp ht hm ho hk => exact frame _ rfl rfl
    | joined e s' hp ht hm ho hk hj => exact frame _ rfl rfl
    | left e k s' hp ht hm ho hk hr hj => exact frame _ rfl rfl
  | bridgeDropped tx mine => exact frame _ rfl rfl
  | setKeys a k =>
    show KeysBij (setKeys c a k)
    unfold setKeys
    by_cases hk : c.owner k = none ∨ c.owner k = some a
    · rw [if_pos hk]
      intro b j
      show upd c.keys a (some k) b = some j ↔ upd _ k (some a) j = some b
      cases ho : c.keys a with
      | none =>
        dsimp only
        by_cases e1 : b = a
        · subst e1
          rw [upd_same]
          by_cases e2 : j = k
          · subst e2; rw [upd_same]; simp
          · rw [upd_ne _ _ e2]
            constructor
            · intro q; injection q with q; exact absurd q.symm e2
            · intro q; have := (hb b j).2 q; rw [ho] at this; cases this
        · rw [upd_ne _ _ e1]
          by_cases e2 : j = k
          · subst e2
            rw [upd_same]
            constructor
            · intro q
              have := (hb b j).1 q
              rcases hk with hk | hk
              · rw [hk] at this; cases this
              · rw [hk] at this; injection this with this; exact absurd this.symm e1
            · intro q; injection q with q; exact absurd q.symm e1
          · rw [upd_ne _ _ e2]; exact hb b j
      | some old =>
        dsimp only
        by_cases e1 : b = a
        · subst e1
          rw [upd_same]
          by_cases e2 : j = k
          · subst e2; rw [upd_same]; simp
          · rw [upd_ne _ _ e2]
            constructor
            · intro q; injection q with q; exact absurd q.symm e2
            · intro q
              by_cases e3 : j = old
              · subst e3; rw [upd_same] at q; cases q
              · rw [upd_ne _ _ e3] at q
                have := (hb b j).2 q; rw [ho] at this; injection this with this; exact absurd this.symm e3
        · rw [upd_ne _ _ e1]
          by_cases e2 : j = k
          · subst e2
            rw [upd_same]
            constructor
            · intro q
              have := (hb b j).1 q
              rcases hk with hk | hk
              · rw [hk] at this; cases this
              · rw [hk] at this; injection this with this; exact absurd this.symm e1
            · intro q; injection q with q; exact absurd q.symm e1
          · rw [upd_ne _ _ e2]
            by_cases e3 : j = old
            · subst e3
              rw [upd_same]
              constructor
              · intro q
                have h1 := (hb b j).1 q
                have h2 := (hb a j).1 ho
                rw [h2] at h1; injection h1 with h1; exact absurd h1.symm e1
              · intro q; cases q
            · rw [upd_ne _ _ e3]; exact hb b j
    · rw [if_neg hk]; exact hb
  | purgeKeys a =>
    show KeysBij (purgeKeys c a)
    unfold purgeKeys
    cases ho : c.keys a with
    | none => exact hb
    | some old =>
      intro b j
      show upd c.keys a none b = some j ↔ upd c.owner old none j = some b
      by_cases e1 : b = a
      · subst e1
        rw [upd_same]
        constructor
        · intro q; cases q
        · intro q
          by_cases e3 : j = old
          · subst e3; rw [upd_same] at q; cases q
          · rw [upd_ne _ _ e3] at q
            have := (hb b j).2 q; rw [ho] at this; injection this with this; exact absurd this.symm e3
      · rw [upd_ne _ _ e1]
        by_cases e3 : j = old
        · subst e3
          rw [upd_same]
          constructor
          · intro q
            have h1 := (hb b j).1 q
            have h2 := (hb a j).1 ho
            rw [h2] at h1; injection h1 with h1; exact absurd h1.symm e1
          · intro q; cases q
        · rw [upd_ne _ _ e3]; exact hb b j

/-! ### The lists have no duplicates -/

theorem mem_withKeys {keys : Nat → Option Nat} {l : List Nat} {a k : Nat} : (a, k) ∈ withKeys keys l ↔ a ∈ l ∧ keys a = some k := by
  unfold withKeys
  rw [List.mem_filterMap]
  constructor
  · rintro ⟨b, h1, h2⟩
    cases hk : keys b with
    | none => rw [hk] at h2; cases h2
    | some j =>
      rw [hk] at h2
      have h2 : some (b, j) = some (a, k) := h2
      injection h2 with h2
      injection h2 with h2 h3
      subst h2; subst h3
      exact ⟨h1, hk⟩
  · rintro ⟨h1, h2⟩
    exact ⟨a, h1, by rw [h2]; rfl⟩

theorem withKeys_cons (keys : Nat → Option Nat) (a : Nat) (l : List Nat) :
    withKeys keys (a :: l) = (match keys a with | none => withKeys keys l | some k => (a, k) :: withKeys keys l) := by
  unfold withKeys
  rw [List.filterMap_cons]
  cases keys a <;> rfl

theorem withKeys_accounts {keys : Nat → Option Nat} {l : List Nat} (h : l.Nodup) : ((withKeys keys l).map Prod.fst).Nodup := by
  induction l with
  | nil => exact List.nodup_nil
  | cons a l ih =>
    obtain ⟨h1, h2⟩ := List.nodup_cons.1 h
    rw [withKeys_cons]
    cases hk : keys a with
    | none => exact ih h2
    | some k =>
      refine List.nodup_cons.2 ⟨?_, ih h2⟩
      intro hm
      obtain ⟨⟨b, j⟩, hb, e⟩ := List.mem_map.1 hm
      have e : b = a := e
      subst e
      exact h1 (mem_withKeys.1 hb).1

theorem withKeys_keys {keys : Nat → Option Nat} (hi : ∀ a b k, keys a = some k → keys b = some k → a = b) {l : List Nat} (h : l.Nodup) :
    ((withKeys keys l).map Prod.snd).Nodup := by
  induction l with
  | nil => exact List.nodup_nil
  | cons a l ih =>
    obtain ⟨h1, h2⟩ := List.nodup_cons.1 h
    rw [withKeys_cons]
    cases hk : keys a with
    | none => exact ih h2
    | some k =>
      refine List.nodup_cons.2 ⟨?_, ih h2⟩
      intro hm
      obtain ⟨⟨b, j⟩, hb, e⟩ := List.mem_map.1 hm
      have e : j = k := e
      subst e
      obtain ⟨q1, q2⟩ := mem_withKeys.1 hb
      rw [hi a b j hk q2] at h1
      exact h1 q1

/-- The invariant of sessions. -/
structure SInv (E : EPar) (c : Chain) : Prop where
  bij : KeysBij c
  sel : c.stk.selected ≠ []
  once : c.stk.selected.Nodup
  qa : (c.queued.map Prod.fst).Nodup
  qk : (c.queued.map Prod.snd).Nodup
  aa : (c.authors.map Prod.fst).Nodup
  ak : (c.authors.map Prod.snd).Nodup
  sync : c.changed = false → c.authors = c.queued
  tot : 1 ≤ E.minSelected → 1 ≤ c.stk.totalSelected
  delay : 1 ≤ c.stk.led.delay

/-- The new authors are the ones queued before, and the new queue are the planned collators with keys. -/
theorem SInv.rotated {E : EPar} {c c' : Chain} {visit : List (Nat × Nat)} {S : List Nat} {era : Nat} (h : SInv E c)
    (hr : Rotation E c c' visit S era) : c'.authors = c.queued ∧ S ≠ [] ∧ S.Nodup ∧ c'.queued = withKeys c.keys S ∧ c'.changed = true := by
  have hne : S ≠ [] ∧ S.Nodup := by
    rcases hr.plan with ⟨e, _⟩ | ⟨e, _⟩
    · rw [e]; exact ⟨h.sel, h.once⟩
    · rw [e]
      rcases hr.sel with ⟨q, _⟩ | ⟨q, r⟩
      · rw [q]; exact ⟨h.sel, h.once⟩
      · exact ⟨q, r.once⟩
  refine ⟨?_, hne.1, hne.2, ?_, ?_⟩
  · rw [hr.auth]
    by_cases hc : c.changed = true
    · rw [if_pos hc]
    · rw [if_neg hc]; exact h.sync (by simpa using hc)
  · rw [hr.queued, if_neg hne.1]
  · rw [hr.changed]; unfold differs; rw [decide_eq_true hne.1]; rfl

theorem SInv.step {E : EPar} (hE : E.Sane) {minV : Nat} {c : Chain} (hm : MInv E minV c) (h : SInv E c) (x : Step) :
    SInv E (step E minV c x) := by
  have hb := step_keys hE hm h.bij x
  rcases step_kind hE hm x with q | ⟨_, _, _, _, _, S, era, _, _, q⟩
  · refine ⟨hb, ?_, ?_, ?_, ?_, ?_, ?_, ?_, fun e => q.tot e (h.tot e), q.delay h.delay⟩
    · rw [q.sel]; exact h.sel
    · rw [q.sel]; exact h.once
    · rw [q.queued]; exact h.qa
    · rw [q.queued]; exact h.qk
    · rw [q.auth]; exact h.aa
    · rw [q.auth]; exact h.ak
    · rw [q.changed, q.auth, q.queued]; exact h.sync
  · obtain ⟨h1, h2, h3, h4, h5⟩ := h.rotated q
    refine ⟨hb, ?_, ?_, ?_, ?_, ?_, ?_, ?_, ?_, ?_⟩
    · rcases q.sel with ⟨r, _⟩ | ⟨r, _⟩
      · rw [r]; exact h.sel
      · exact r
    · rcases q.sel with ⟨r, _⟩ | ⟨_, r⟩
      · rw [r]; exact h.once
      · exact r.once
    · rw [h4]; exact withKeys_accounts h3
    · rw [h4]
      refine withKeys_keys (fun a b k ha hk => ?_) h3
      have e1 := (h.bij a k).1 ha
      have e2 := (h.bij b k).1 hk
      rw [e1] at e2; injection e2
    · rw [h1]; exact h.qa
    · rw [h1]; exact h.qk
    · rw [h5]; intro e; cases e
    · intro e; rw [q.tot]; exact h.tot e
    · rw [q.delay]; exact h.delay

/-! ### Authors are bonded candidates -/

/-- Selected collators are candidates who may not leave yet, and queued validators and authors are candidates. -/
structure Bonded (c : Chain) : Prop where
  sel : ∀ a ∈ c.stk.selected, standing c.stk.led a = .member ∨ ∃ w, standing c.stk.led a = .leaving w ∧ c.stk.led.era < w
  queued : ∀ a ∈ c.queued.map Prod.fst, standing c.stk.led a ≠ .out
  auth : ∀ a ∈ c.authors.map Prod.fst, standing c.stk.led a ≠ .out

theorem Bonded.step {E : EPar} (hE : E.Sane) {minV : Nat} {c : Chain} (hm : MInv E minV c) (h : SInv E c) (hb : Bonded c)
    (hs : 1 ≤ E.minSelected) (hel : ∃ a x, Eligible c.stk.led a x) (x : Step) : Bonded (Membership.step E minV c x) := by
  rcases step_kind hE hm x with q | ⟨_, _, _, _, _, S, era, _, _, q⟩
  · generalize Membership.step E minV c x = c' at q ⊢
    have keep : ∀ a, standing c.stk.led a ≠ .out → standing c'.stk.led a ≠ .out := by
      intro a ha
      rcases q.stand a with e | e | e
      · rw [e]; exact ha
      · rw [e]; intro; contradiction
      · rw [e]; intro; contradiction
    refine ⟨?_, ?_, ?_⟩
    · intro a ha
      rw [q.sel] at ha
      rw [q.era]
      rcases q.stand a with e | e | e
      · rw [e]; exact hb.sel a ha
      · exact Or.inl e
      · have := h.delay
        exact Or.inr ⟨_, e, by omega⟩
    · intro a ha; rw [q.queued] at ha; exact keep a (hb.queued a ha)
    · intro a ha; rw [q.auth] at ha; exact keep a (hb.auth a ha)
  · obtain ⟨h1, h2, h3, h4, h5⟩ := h.rotated q
    generalize Membership.step E minV c x = c' at q h1 h4 h5 ⊢
    have hbest : BestChoice c.stk.led c.stk.totalSelected c'.stk.selected := by
      rcases q.sel with ⟨_, r⟩ | ⟨_, r⟩
      · rcases r with r | r
        · have := h.tot hs; omega
        · obtain ⟨a, y, hy⟩ := hel; exact absurd hy (r a y)
      · exact r
    have hmem : ∀ a ∈ c'.stk.selected, standing c'.stk.led a = .member := by
      intro a ha
      obtain ⟨y, hy⟩ := hbest.members a ha
      have e1 := eligible_member hy
      rcases q.cands a with e | ⟨⟨w, e, _⟩, _⟩
      · rw [standing_congr e]; exact e1
      · rw [e1] at e; cases e
    refine ⟨fun a ha => Or.inl (hmem a ha), ?_, ?_⟩
    · intro a ha
      rw [h4] at ha
      obtain ⟨⟨a', k⟩, hk, e⟩ := List.mem_map.1 ha
      have e : a' = a := e
      subst e
      have hS := (mem_withKeys.1 hk).1
      rcases q.plan with ⟨e1, e2⟩ | ⟨e1, _⟩
      · rw [e1] at hS
        rcases q.cands a' with e | ⟨⟨w, e, hw⟩, _⟩
        · rw [standing_congr e]
          rcases hb.sel a' hS with r | ⟨w, r, _⟩
          · rw [r]; intro; contradiction
          · rw [r]; intro; contradiction
        · rcases hb.sel a' hS with r | ⟨w', r, hw'⟩
          · rw [r] at e; cases e
          · rw [r] at e; injection e with e; omega
      · rw [e1] at hS; rw [hmem a' hS]; intro; contradiction
    · intro a ha
      rw [h1] at ha
      rcases q.cands a with e | ⟨_, e, _⟩
      · rw [standing_congr e]; exact hb.queued a ha
      · exact absurd ha e

/-! ### After a removal -/

/-- How far an account that left the validators has left the session lists after `n` rotations. -/
structure Out (c : Chain) (a n : Nat) : Prop where
  one : 1 ≤ n → a ∉ c.stk.selected
  two : 2 ≤ n → a ∉ c.queued.map Prod.fst
  three : 3 ≤ n → a ∉ c.authors.map Prod.fst

theorem Out.step {E : EPar} (hE : E.Sane) {minV : Nat} {c : Chain} (hm : MInv E minV c) (h : SInv E c) {a n : Nat} (ho : Out c a n)
    (hs : 1 ≤ E.minSelected) (hel : ∃ a x, Eligible c.stk.led a x) (ha : a ∉ c.vm.validators) (x : Step) :
    Out (Membership.step E minV c x) a (n + ((Membership.step E minV c x).index - c.index)) := by
  rcases step_kind hE hm x with q | ⟨_, _, _, _, _, S, era, _, _, q⟩
  · rw [q.index, Nat.sub_self, Nat.add_zero]
    exact ⟨by rw [q.sel]; exact ho.one, by rw [q.queued]; exact ho.two, by rw [q.auth]; exact ho.three⟩
  · obtain ⟨h1, h2, h3, h4, h5⟩ := h.rotated q
    generalize Membership.step E minV c x = c' at q h1 h4 h5 ⊢
    have e : c'.index - c.index = 1 := by rw [q.index]; omega
    rw [e]
    have hbest : BestChoice c.stk.led c.stk.totalSelected c'.stk.selected := by
      rcases q.sel with ⟨_, r⟩ | ⟨_, r⟩
      · rcases r with r | r
        · have := h.tot hs; omega
        · obtain ⟨a, y, hy⟩ := hel; exact absurd hy (r a y)
      · exact r
    have hnew : a ∉ c'.stk.selected := by
      intro hin
      obtain ⟨y, hy⟩ := hbest.members a hin
      exact ha ((hm.agree.reg a).2 (eligible_member hy))
    refine ⟨fun _ => hnew, ?_, ?_⟩
    · intro hn hin
      rw [h4] at hin
      obtain ⟨⟨a', k⟩, hk, e⟩ := List.mem_map.1 hin
      have e : a' = a := e
      subst e
      have hS := (mem_withKeys.1 hk).1
      rcases q.plan with ⟨e1, _⟩ | ⟨e1, _⟩
      · rw [e1] at hS; exact ho.one (by omega) hS
      · rw [e1] at hS; exact hnew hS
    · intro hn; rw [h1]; exact ho.two (by omega)

end Verif.Membership
