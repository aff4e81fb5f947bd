import Verif.Lemmas.Summary

namespace Verif.Summary

open Verif

/-- The entry says that root `rid` was accepted (sent to Ethereum or anchored). -/
def isPassed (rid : RootId) : Event → Bool
  | .passed r _ _ => r == rid
  | _ => false

/-- Number of times a root was accepted. -/
def passCount (log : List Event) (rid : RootId) : Nat := log.countP (isPassed rid)

theorem passCount_append (a b : List Event) (rid : RootId) : passCount (a ++ b) rid = passCount a rid + passCount b rid := by
  simp [passCount]

theorem passCount_zero {log : List Event} {rid : RootId} (h : passCount log rid = 0) (x : Nat) (t : Option Nat) :
    Event.passed rid x t ∉ log := by
  intro hm
  have := List.countP_eq_zero.1 h _ hm
  simp [isPassed] at this

theorem passCount_pos {log : List Event} {rid : RootId} {x : Nat} {t : Option Nat} (hm : Event.passed rid x t ∈ log) :
    0 < passCount log rid := by
  rw [passCount, List.countP_pos_iff]
  exact ⟨_, hm, by simp [isPassed]⟩

/-- The state invariant. -/
structure Inv (refOf : RootId → Nat → Nat) (s : State) : Prop where
  rv : ∀ rid d, getRoot s.roots rid = some d → (s.votes rid).isSome = true
  pend : ∀ r k, s.pending r = some k → (getRoot s.roots ⟨r, k⟩).isSome = true
  pendNot : ∀ r k k' d, s.pending r = some k → getRoot s.roots ⟨r, k'⟩ = some d → d.validated = false
  vlog : ∀ rid h, .validated rid h ∈ s.log → ∃ d, getRoot s.roots rid = some d ∧ d.validated = true ∧ d.rootHash = h
  vlog' : ∀ rid d, getRoot s.roots rid = some d → d.validated = true → .validated rid d.rootHash ∈ s.log
  appr : ∀ rid d, getRoot s.roots rid = some d → d.validated = true → ∃ v, s.votes rid = some v ∧ v.isApproved = true
  pass : ∀ rid h t, .passed rid h t ∈ s.log →
    ∃ d, getRoot s.roots rid = some d ∧ d.validated = true ∧ d.rootHash = h ∧ h ≠ 0 ∧ d.txId = t
  once : ∀ rid, passCount s.log rid ≤ 1
  ref : ∀ r rid, s.extRef r = some rid → ∃ d, getRoot s.roots rid = some d ∧ r = refOf rid d.rootHash ∧ d.validated = true ∧
    passCount s.log rid = 0
  rev : ∀ r rid, s.reviews rid = some r → ∃ d, getRoot s.roots rid = some d ∧ r = refOf rid d.rootHash ∧ d.validated = true ∧
    passCount s.log rid = 0
  tx : ∀ t rid, s.txIdToRoot t = some rid → ∃ d, getRoot s.roots rid = some d ∧ d.txId = some t ∧
    .passed rid d.rootHash (some t) ∈ s.log
  fin : ∀ rid d, getRoot s.roots rid = some d → d.finalised = true → ∃ t, .finalised rid t ∈ s.log
  finlog : ∀ rid t, .finalised rid t ∈ s.log → ∃ d, getRoot s.roots rid = some d ∧ d.finalised = true ∧ d.txId = some t ∧
    .passed rid d.rootHash (some t) ∈ s.log
  notx : ∀ rid d, getRoot s.roots rid = some d → passCount s.log rid = 0 → d.txId = none

variable {refOf : RootId → Nat → Nat}

theorem inv_genesis (sp vp first : Nat) (vs : List Avn.Validator) (a e : Bool) (g : Nat) :
    Inv refOf (genesis sp vp first vs a e g) where
  rv := by simp [genesis, getRoot]
  pend := by simp [genesis]
  pendNot := by simp [genesis]
  vlog := by simp [genesis]
  vlog' := by simp [genesis, getRoot]
  appr := by simp [genesis, getRoot]
  pass := by simp [genesis]
  once := by simp [genesis, passCount]
  ref := by simp [genesis]
  rev := by simp [genesis]
  tx := by simp [genesis]
  fin := by simp [genesis, getRoot]
  finlog := by simp [genesis]
  notx := by simp [genesis, getRoot]

/-- The log grew only by entries that are neither acceptances, validations nor finalisations. -/
def Quiet (evs : List Event) : Prop :=
  ∀ e ∈ evs, (∀ r h t, e ≠ .passed r h t) ∧ (∀ r h, e ≠ .validated r h) ∧ (∀ r t, e ≠ .finalised r t)

theorem quiet_passCount {evs : List Event} (h : Quiet evs) (rid : RootId) : passCount evs rid = 0 := by
  rw [passCount, List.countP_eq_zero]
  intro e he
  have := (h e he).1
  cases e with
  | passed r h t => exact absurd rfl (this r h t)
  | _ => simp [isPassed]

theorem sessionValid_iff (s : State) (rid : RootId) : sessionValid s rid = true ↔
    ∃ d v, getRoot s.roots rid = some d ∧ s.pending rid.range = some rid.ingress ∧ s.votes rid = some v ∧ d.validated = false := by
  unfold sessionValid
  cases h1 : getRoot s.roots rid with
  | none => simp
  | some d =>
    cases h2 : s.pending rid.range with
    | none => simp
    | some k =>
      cases h3 : s.votes rid with
      | none => simp
      | some v =>
        simp only [Bool.and_eq_true, Bool.not_eq_true', beq_iff_eq, Option.some.injEq]
        constructor
        · rintro ⟨h, rfl⟩; exact ⟨d, v, rfl, rfl, rfl, h⟩
        · rintro ⟨d', v', rfl, rfl, rfl, h⟩; exact ⟨h, rfl⟩

/-- Invariant when only the votes grow, the log grows quietly and nothing else relevant changes. -/
theorem Inv.quiet {s s' : State} (hi : Inv refOf s) {evs : List Event} (hq : Quiet evs) (hl : s'.log = s.log ++ evs)
    (hr : s'.roots = s.roots)
    (hv : ∀ rid v, s.votes rid = some v → ∃ v', s'.votes rid = some v' ∧ (v.isApproved = true → v'.isApproved = true))
    (hp : ∀ r k, s'.pending r = some k → s.pending r = some k)
    (ht : s'.txIdToRoot = s.txIdToRoot)
    (he : ∀ r rid, s'.extRef r = some rid → s.extRef r = some rid)
    (hw : ∀ rid r, s'.reviews rid = some r → s.reviews rid = some r ∨ s.extRef r = some rid) : Inv refOf s' where
  rv := by
    intro rid d h; rw [hr] at h
    have := hi.rv rid d h
    obtain ⟨v, hv1⟩ := Option.isSome_iff_exists.1 this
    obtain ⟨v', hv', _⟩ := hv rid v hv1
    simp [hv']
  pend := by intro r k h; rw [hr]; exact hi.pend r k (hp r k h)
  pendNot := by intro r k k' d h; rw [hr]; exact hi.pendNot r k k' d (hp r k h)
  vlog := by
    intro rid h hm; rw [hl] at hm
    rcases List.mem_append.1 hm with hm | hm
    · rw [hr]; exact hi.vlog rid h hm
    · exact absurd rfl ((hq _ hm).2.1 rid h)
  vlog' := by intro rid d h; rw [hr] at h; rw [hl]; intro h2; exact List.mem_append_left _ (hi.vlog' rid d h h2)
  appr := by
    intro rid d h h2; rw [hr] at h
    obtain ⟨v, h3, h4⟩ := hi.appr rid d h h2
    obtain ⟨v', h5, h6⟩ := hv rid v h3
    exact ⟨v', h5, h6 h4⟩
  pass := by
    intro rid h t hm; rw [hl] at hm
    rcases List.mem_append.1 hm with hm | hm
    · rw [hr]; exact hi.pass rid h t hm
    · exact absurd rfl ((hq _ hm).1 rid h t)
  once := by intro rid; rw [hl, passCount_append, quiet_passCount hq]; exact hi.once rid
  ref := by intro r rid h; rw [hr, hl, passCount_append, quiet_passCount hq]; exact hi.ref r rid (he r rid h)
  rev := by
    intro r rid h; rw [hr, hl, passCount_append, quiet_passCount hq]
    rcases hw rid r h with h | h
    · exact hi.rev r rid h
    · exact hi.ref r rid h
  tx := by
    intro t rid h; rw [ht] at h; rw [hr, hl]
    obtain ⟨d, h1, h2, h3⟩ := hi.tx t rid h
    exact ⟨d, h1, h2, List.mem_append_left _ h3⟩
  fin := by
    intro rid d h h2; rw [hr] at h; rw [hl]
    obtain ⟨t, h3⟩ := hi.fin rid d h h2
    exact ⟨t, List.mem_append_left _ h3⟩
  finlog := by
    intro rid t hm; rw [hl] at hm ⊢
    rcases List.mem_append.1 hm with hm | hm
    · rw [hr]
      obtain ⟨d, h1, h2, h3, h4⟩ := hi.finlog rid t hm
      exact ⟨d, h1, h2, h3, List.mem_append_left _ h4⟩
    · exact absurd rfl ((hq _ hm).2.2 rid t)
  notx := by
    intro rid d h; rw [hr] at h; rw [hl, passCount_append, quiet_passCount hq]; exact hi.notx rid d h

theorem quiet_of_slotEvents {evs : List Event} (h : ∀ e ∈ evs, slotEvent e = true) : Quiet evs := by
  intro e he
  have := h e he
  cases e <;> simp [slotEvent] at this <;> simp

theorem castVote_ok {vs : List Avn.Validator} {act : Bool} {v v' : Avn.Session} {x : Nat} {b : Bool}
    (h : Avn.castVote vs act v x b = .ok v') :
    Avn.isValidator vs x = true ∧ act = true ∧ v.hasVoted x = false ∧
    v' = if b then { v with ayes := v.ayes ++ [x] } else { v with nays := v.nays ++ [x] } := by
  unfold Avn.castVote Avn.validateVote at h
  by_cases h1 : Avn.isValidator vs x = false
  · rw [if_pos h1] at h; simp at h
  rw [if_neg h1] at h
  by_cases h2 : act = false
  · rw [if_pos h2] at h; simp at h
  rw [if_neg h2] at h
  by_cases h3 : v.hasVoted x = true
  · rw [if_pos h3] at h; simp at h
  rw [if_neg h3] at h
  dsimp only at h
  refine ⟨by simpa using h1, by simpa using h2, by simpa using h3, ?_⟩
  cases b with
  | true =>
    simp only [if_true] at h ⊢
    split at h
    · cases h; rfl
    · simp at h
  | false =>
    simp only [Bool.false_eq_true, if_false] at h ⊢
    split at h
    · cases h; rfl
    · simp at h

theorem castVote_approved {vs : List Avn.Validator} {act : Bool} {v v' : Avn.Session} {x : Nat} {b : Bool}
    (h : Avn.castVote vs act v x b = .ok v') (ha : v.isApproved = true) : v'.isApproved = true := by
  obtain ⟨_, _, _, rfl⟩ := castVote_ok h
  cases b
  · simpa [Avn.Session.isApproved] using ha
  · simp [Avn.Session.isApproved] at ha ⊢; omega

theorem inv_recorded {s : State} (hi : Inv refOf s) (b h k who ve : Nat)
    (hfree : neitherPendingNorApproved s ⟨s.nextBlock, b⟩ = true)
    (hv : s.votes ⟨⟨s.nextBlock, b⟩, k⟩ = none) : Inv refOf (recordEffects s ⟨⟨s.nextBlock, b⟩, k⟩ h who ve) := by
  have hg : getRoot s.roots ⟨⟨s.nextBlock, b⟩, k⟩ = none := by
    cases hg : getRoot s.roots ⟨⟨s.nextBlock, b⟩, k⟩ with
    | none => rfl
    | some d => have := hi.rv _ d hg; simp [hv] at this
  simp only [neitherPendingNorApproved, Bool.and_eq_true, Bool.not_eq_true'] at hfree
  obtain ⟨hf1, hf2⟩ := hfree
  generalize hrange : (⟨s.nextBlock, b⟩ : Range) = rg at *
  have hpc : ∀ rid, passCount (s.log ++ [.calculated ⟨rg, k⟩ h who]) rid = passCount s.log rid := by
    intro rid; rw [passCount_append]; simp [passCount, isPassed]
  constructor
  · intro rid d hd
    simp only [recordEffects, getRoot_put] at hd
    simp only [recordEffects, upd_apply]
    split at hd
    · rename_i e; simp [e]
    · rename_i e; rw [if_neg e]; exact hi.rv rid d hd
  · intro r k' hp
    simp only [recordEffects, upd_apply] at hp
    simp only [recordEffects, getRoot_put]
    split at hp
    · rename_i e; cases hp; simp [e]
    · split
      · simp
      · exact hi.pend r k' hp
  · intro r k' k'' d hp hd
    simp only [recordEffects, upd_apply] at hp
    simp only [recordEffects, getRoot_put] at hd
    split at hd
    · cases hd; rfl
    · split at hp
      · rename_i e; rw [e] at hd; exact none_validated hf2 k'' d hd
      · exact hi.pendNot r k' k'' d hp hd
  · intro rid x hm
    simp only [recordEffects, List.mem_append, List.mem_singleton, reduceCtorEq, or_false] at hm
    obtain ⟨d, h1, h2, h3⟩ := hi.vlog rid x hm
    refine ⟨d, ?_, h2, h3⟩
    simp only [recordEffects, getRoot_put]
    rw [if_neg]; exact h1
    intro e; rw [e, hg] at h1; simp at h1
  · intro rid d hd hv'
    simp only [recordEffects, getRoot_put] at hd
    simp only [recordEffects]
    split at hd
    · cases hd; simp at hv'
    · exact List.mem_append_left _ (hi.vlog' rid d hd hv')
  · intro rid d hd hv'
    simp only [recordEffects, getRoot_put] at hd
    simp only [recordEffects, upd_apply]
    split at hd
    · cases hd; simp at hv'
    · rename_i e; rw [if_neg e]; exact hi.appr rid d hd hv'
  · intro rid x t hm
    simp only [recordEffects, List.mem_append, List.mem_singleton, reduceCtorEq, or_false] at hm
    obtain ⟨d, h1, h2⟩ := hi.pass rid x t hm
    refine ⟨d, ?_, h2⟩
    simp only [recordEffects, getRoot_put]
    rw [if_neg]; exact h1
    intro e; rw [e, hg] at h1; simp at h1
  · intro rid; simp only [recordEffects, hpc]; exact hi.once rid
  · intro r rid hr
    obtain ⟨d, h1, h2⟩ := hi.ref r rid hr
    refine ⟨d, ?_, ?_⟩
    · simp only [recordEffects, getRoot_put]
      rw [if_neg]; exact h1
      intro e; rw [e, hg] at h1; simp at h1
    · simp only [recordEffects, hpc]; exact h2
  · intro r rid hr
    obtain ⟨d, h1, h2⟩ := hi.rev r rid hr
    refine ⟨d, ?_, ?_⟩
    · simp only [recordEffects, getRoot_put]
      rw [if_neg]; exact h1
      intro e; rw [e, hg] at h1; simp at h1
    · simp only [recordEffects, hpc]; exact h2
  · intro t rid hr
    obtain ⟨d, h1, h2, h3⟩ := hi.tx t rid hr
    refine ⟨d, ?_, h2, List.mem_append_left _ h3⟩
    simp only [recordEffects, getRoot_put]
    rw [if_neg]; exact h1
    intro e; rw [e, hg] at h1; simp at h1
  · intro rid d hd hf
    simp only [recordEffects, getRoot_put] at hd
    split at hd
    · cases hd; simp at hf
    · obtain ⟨t, h3⟩ := hi.fin rid d hd hf
      exact ⟨t, List.mem_append_left _ h3⟩
  · intro rid t hm
    simp only [recordEffects, List.mem_append, List.mem_singleton, reduceCtorEq, or_false] at hm
    obtain ⟨d, h1, h2, h3, h4⟩ := hi.finlog rid t hm
    refine ⟨d, ?_, h2, h3, List.mem_append_left _ h4⟩
    simp only [recordEffects, getRoot_put]
    rw [if_neg]; exact h1
    intro e; rw [e, hg] at h1; simp at h1
  · intro rid d hd
    simp only [recordEffects, getRoot_put] at hd
    simp only [recordEffects, hpc]
    split at hd
    · cases hd; intro _; rfl
    · exact hi.notx rid d hd

/-- Processing a validated, not yet passed root that is no longer referenced afterwards keeps the invariant. `fx` is
the state change made around the processing: it may clear references and reviews, remove the pending entry, and set `validated`. -/
theorem inv_processed {s s1 s' : State} (hi : Inv refOf s) {rid : RootId} {d : RootData} {pub : Option Nat}
    (hd : getRoot s.roots rid = some d) (hp : Processed s rid d pub s1 ∨ s1 = s) (h0 : passCount s.log rid = 0)
    (hval : d.validated = true ∨ .validated rid d.rootHash ∈ s'.log)
    (happ : ∃ v, s.votes rid = some v ∧ v.isApproved = true)
    (hroots : ∀ x, getRoot s'.roots x = if x = rid then (getRoot s1.roots rid).map (fun d => { d with validated := true })
      else getRoot s1.roots x)
    (hvotes : s'.votes = s.votes) (htx : s'.txIdToRoot = s1.txIdToRoot)
    (hpend : ∀ r k, s'.pending r = some k → s.pending r = some k ∧ r ≠ rid.range)
    (evs : List Event) (hlog : s'.log = s1.log ++ evs)
    (hevs : ∀ e ∈ evs, (∀ r h t, e ≠ .passed r h t) ∧ (∀ r h, e = .validated r h → r = rid ∧ h = d.rootHash) ∧
      (∀ r t, e ≠ .finalised r t))
    (href : ∀ r x, s'.extRef r = some x → s.extRef r = some x ∧ x ≠ rid)
    (hrev : ∀ x r, s'.reviews x = some r → s.reviews x = some r ∧ x ≠ rid) : Inv refOf s' := by
  -- facts about s1
  obtain ⟨d1, hd1, e1, e2, e3⟩ : ∃ d1, getRoot s1.roots rid = some d1 ∧ d1.rootHash = d.rootHash ∧
      d1.finalised = d.finalised ∧ (∀ x, x ≠ rid → getRoot s1.roots x = getRoot s.roots x) := by
    rcases hp with hp | rfl
    on_goal 2 => exact ⟨d, hd, rfl, rfl, fun _ _ => rfl⟩
    cases hp with
    | empty => exact ⟨d, hd, rfl, rfl, fun _ _ => rfl⟩
    | sent tx =>
      refine ⟨{ d with txId := some tx }, by simp [getRoot_mutate, hd], rfl, rfl, ?_⟩
      intro x hx; simp [getRoot_mutate, hx]
    | anchored => exact ⟨d, hd, rfl, rfl, fun _ _ => rfl⟩
  have hnp : ∀ h t, Event.passed rid h t ∉ s.log := fun h t => passCount_zero h0 h t
  have hsome : ∀ t, s.txIdToRoot t ≠ some rid := by
    intro t ht
    obtain ⟨d', _, _, h3⟩ := hi.tx t rid ht
    exact hnp _ _ h3
  have hnf : ∀ t, Event.finalised rid t ∉ s.log := by
    intro t ht
    obtain ⟨d', _, _, _, h3⟩ := hi.finlog rid t ht
    exact hnp _ _ h3
  obtain ⟨logp, hl1, hlp⟩ : ∃ logp, s1.log = s.log ++ logp ∧
      (logp = [] ∧ s1.txIdToRoot = s.txIdToRoot ∨
       (∃ t, logp = [.passed rid d.rootHash t] ∧ d.rootHash ≠ 0 ∧ (t = none → s1.txIdToRoot = s.txIdToRoot) ∧
          (∀ tx, t = some tx → d1.txId = some tx ∧ s1.txIdToRoot = upd s.txIdToRoot tx (some rid)))) := by
    rcases hp with hp | rfl
    on_goal 2 => exact ⟨[], by simp, .inl ⟨rfl, rfl⟩⟩
    cases hp with
    | empty => exact ⟨[], by simp, .inl ⟨rfl, rfl⟩⟩
    | sent tx hne =>
      refine ⟨_, rfl, .inr ⟨some tx, rfl, hne, by simp, ?_⟩⟩
      rintro tx' ⟨⟩
      simp only [getRoot_mutate, if_true, hd, Option.getD_some, Option.some.injEq] at hd1
      subst hd1
      exact ⟨rfl, rfl⟩
    | anchored hne => exact ⟨_, rfl, .inr ⟨none, rfl, hne, by simp, by simp⟩⟩
  have hg' : ∀ x, getRoot s'.roots x = if x = rid then some { d1 with validated := true } else getRoot s.roots x := by
    intro x
    rw [hroots x]
    by_cases hx : x = rid
    · simp [hx, hd1]
    · rw [if_neg hx, if_neg hx]; exact e3 x hx
  have hlog' : s'.log = s.log ++ (logp ++ evs) := by rw [hlog, hl1, List.append_assoc]
  have hpassmem : ∀ x h t, Event.passed x h t ∈ s'.log → x ≠ rid → Event.passed x h t ∈ s.log := by
    intro x h t hm hx
    rw [hlog'] at hm
    rcases List.mem_append.1 hm with hm | hm
    · exact hm
    · rcases List.mem_append.1 hm with hm | hm
      · rcases hlp with ⟨rfl, _⟩ | ⟨t', rfl, _⟩
        · simp at hm
        · simp at hm; exact absurd hm.1 hx
      · exact absurd rfl ((hevs _ hm).1 x h t)
  have hpc : ∀ x, x ≠ rid → passCount s'.log x = passCount s.log x := by
    intro x hx
    rw [hlog', passCount_append, passCount_append]
    have h1 : passCount logp x = 0 := by
      rcases hlp with ⟨rfl, _⟩ | ⟨t', rfl, _⟩
      · rfl
      · simp [passCount, isPassed]; exact fun e => hx e.symm
    have h2 : passCount evs x = 0 := by
      rw [passCount, List.countP_eq_zero]
      intro e he
      have := (hevs e he).1
      cases e with
      | passed r h t => exact absurd rfl (this r h t)
      | _ => simp [isPassed]
    omega
  constructor
  · intro x dx hx
    rw [hg'] at hx; rw [hvotes]
    split at hx
    · rename_i e; obtain ⟨v, hv, _⟩ := happ; simp [e, hv]
    · exact hi.rv x dx hx
  · intro r k hp'
    obtain ⟨h1, h2⟩ := hpend r k hp'
    rw [hg']
    split
    · simp
    · exact hi.pend r k h1
  · intro r k k' dx hp' hx
    obtain ⟨h1, h2⟩ := hpend r k hp'
    rw [hg'] at hx
    rw [if_neg (fun e => h2 (by rw [← e]))] at hx
    exact hi.pendNot r k k' dx h1 hx
  · intro x h hm
    rw [hlog'] at hm
    by_cases hx : x = rid
    · subst hx
      refine ⟨_, by rw [hg', if_pos rfl], rfl, ?_⟩
      rcases List.mem_append.1 hm with hm | hm
      · obtain ⟨dx, h1, _, h3⟩ := hi.vlog x h hm
        rw [hd] at h1; cases h1; rw [← h3]; exact e1
      · rcases List.mem_append.1 hm with hm | hm
        · rcases hlp with ⟨rfl, _⟩ | ⟨t', rfl, _⟩ <;> simp at hm
        · rw [((hevs _ hm).2.1 x h rfl).2]; exact e1
    · rw [hg', if_neg hx]
      rcases List.mem_append.1 hm with hm | hm
      · exact hi.vlog x h hm
      · rcases List.mem_append.1 hm with hm | hm
        · rcases hlp with ⟨rfl, _⟩ | ⟨t', rfl, _⟩ <;> simp at hm
        · exact absurd ((hevs _ hm).2.1 x h rfl).1 hx
  · intro x dx hx hv
    rw [hg'] at hx
    split at hx
    · rename_i e
      cases hx
      subst e
      change Event.validated x d1.rootHash ∈ s'.log
      rw [e1]
      rcases hval with h | h
      · rw [hlog']; exact List.mem_append_left _ (hi.vlog' x d hd h)
      · exact h
    · rw [hlog']; exact List.mem_append_left _ (hi.vlog' x dx hx hv)
  · intro x dx hx hv
    rw [hg'] at hx; rw [hvotes]
    split at hx
    · rename_i e; subst e; exact happ
    · exact hi.appr x dx hx hv
  · intro x h t hm
    by_cases hx : x = rid
    · subst hx
      refine ⟨_, by rw [hg', if_pos rfl], rfl, ?_⟩
      rw [hlog'] at hm
      rcases List.mem_append.1 hm with hm | hm
      · exact absurd hm (hnp h t)
      · rcases List.mem_append.1 hm with hm | hm
        · rcases hlp with ⟨rfl, _⟩ | ⟨t', rfl, hne, ht1, ht2⟩
          · simp at hm
          · simp at hm
            obtain ⟨rfl, rfl⟩ := hm
            refine ⟨e1, hne, ?_⟩
            cases t with
            | some tx => exact (ht2 tx rfl).1
            | none =>
              -- anchored: the transaction id is unchanged
              change d1.txId = none
              rcases hp with hp | rfl
              on_goal 2 => simp at hl1
              cases hp with
              | empty h => exact absurd h hne
              | sent tx => simp at hl1
              | anchored =>
                rw [hd] at hd1; cases hd1
                exact hi.notx x d hd h0
        · exact absurd rfl ((hevs _ hm).1 x h t)
    · rw [hg', if_neg hx]; exact hi.pass x h t (hpassmem x h t hm hx)
  · intro x
    by_cases hx : x = rid
    · subst hx
      rw [hlog', passCount_append, passCount_append, h0]
      have h2 : passCount evs x = 0 := by
        rw [passCount, List.countP_eq_zero]
        intro e he
        have := (hevs e he).1
        cases e with
        | passed r h t => exact absurd rfl (this r h t)
        | _ => simp [isPassed]
      have h1 : passCount logp x ≤ 1 := by
        rcases hlp with ⟨rfl, _⟩ | ⟨t', rfl, _⟩
        · simp [passCount]
        · simp [passCount, isPassed]
      omega
    · rw [hpc x hx]; exact hi.once x
  · intro r x hr
    obtain ⟨h1, h2⟩ := href r x hr
    rw [hg', if_neg h2, hpc x h2]; exact hi.ref r x h1
  · intro r x hr
    obtain ⟨h1, h2⟩ := hrev x r hr
    rw [hg', if_neg h2, hpc x h2]; exact hi.rev r x h1
  · intro t x hx
    rw [htx] at hx
    have hold : s.txIdToRoot t = some x → ∃ d, getRoot s'.roots x = some d ∧ d.txId = some t ∧
        Event.passed x d.rootHash (some t) ∈ s'.log := by
      intro hx
      have hne : x ≠ rid := fun e => hsome t (by rw [← e]; exact hx)
      obtain ⟨dx, h1, h2, h3⟩ := hi.tx t x hx
      refine ⟨dx, by rw [hg', if_neg hne]; exact h1, h2, ?_⟩
      rw [hlog']; exact List.mem_append_left _ h3
    rcases hlp with ⟨rfl, h⟩ | ⟨t', rfl, hne, ht1, ht2⟩
    · rw [h] at hx; exact hold hx
    · cases t' with
      | none => rw [ht1 rfl] at hx; exact hold hx
      | some tx =>
        obtain ⟨h1, h2⟩ := ht2 tx rfl
        rw [h2, upd_apply] at hx
        split at hx
        · rename_i e
          cases hx
          subst e
          refine ⟨{ d1 with validated := true }, by rw [hg', if_pos rfl], h1, ?_⟩
          rw [hlog']
          change Event.passed rid d1.rootHash _ ∈ _
          rw [e1]
          simp
        · exact hold hx
  · intro x dx hx hf
    rw [hg'] at hx
    split at hx
    · rename_i e
      cases hx; subst e
      change d1.finalised = true at hf
      rw [e2] at hf
      obtain ⟨t, ht⟩ := hi.fin x d hd hf
      exact absurd ht (hnf t)
    · obtain ⟨t, ht⟩ := hi.fin x dx hx hf
      exact ⟨t, by rw [hlog']; exact List.mem_append_left _ ht⟩
  · intro x t hm
    have hm' : Event.finalised x t ∈ s.log := by
      rw [hlog'] at hm
      rcases List.mem_append.1 hm with hm | hm
      · exact hm
      · rcases List.mem_append.1 hm with hm | hm
        · rcases hlp with ⟨rfl, _⟩ | ⟨t', rfl, _⟩ <;> simp at hm
        · exact absurd rfl ((hevs _ hm).2.2 x t)
    have hx : x ≠ rid := fun e => hnf t (by rw [← e]; exact hm')
    obtain ⟨dx, h1, h2, h3, h4⟩ := hi.finlog x t hm'
    refine ⟨dx, by rw [hg', if_neg hx]; exact h1, h2, h3, ?_⟩
    rw [hlog']; exact List.mem_append_left _ h4
  · intro x dx hx
    rw [hg'] at hx
    split at hx
    · rename_i e
      cases hx; subst e
      intro hz
      change d1.txId = none
      rcases hp with hp | rfl
      on_goal 2 => rw [hd] at hd1; cases hd1; exact hi.notx x d hd h0
      cases hp with
      | empty h => rw [hd] at hd1; cases hd1; exact hi.notx x d hd h0
      | sent tx h =>
        exfalso
        refine passCount_zero hz d.rootHash (some tx) ?_
        rw [hlog]; simp
      | anchored => rw [hd] at hd1; cases hd1; exact hi.notx x d hd h0
    · rename_i hne
      rw [hpc x hne]; exact hi.notx x dx hx

theorem processed_rest {s s1 : State} {rid : RootId} {d : RootData} {pub : Option Nat} (hp : Processed s rid d pub s1)
    (hd : getRoot s.roots rid = some d) : s1.pending = s.pending ∧ s1.votes = s.votes ∧ s1.extRef = s.extRef ∧
      s1.reviews = s.reviews ∧ ∃ dd, getRoot s1.roots rid = some dd ∧ dd.validated = d.validated := by
  cases hp with
  | empty => exact ⟨rfl, rfl, rfl, rfl, d, hd, rfl⟩
  | sent tx => exact ⟨rfl, rfl, rfl, rfl, { d with txId := some tx }, by simp [getRoot_mutate, hd], rfl⟩
  | anchored => exact ⟨rfl, rfl, rfl, rfl, d, hd, rfl⟩

/-- Every elementary transition preserves the invariant. -/
theorem Inv.micro {s s' : State} {op : Step} (hi : Inv refOf s) (h : Micro refOf op s s') : Inv refOf s' := by
  cases h with
  | frame _ evs hf hl he hs hp =>
    obtain ⟨f1, f2, f3, f4, f5, f6, f7, f8⟩ := hf
    refine hi.quiet (quiet_of_slotEvents he) hl f3 ?_ ?_ f2 ?_ ?_
    · intro rid v h; rw [f4]; exact ⟨v, h, fun h => h⟩
    · intro r k; rw [f5]; exact id
    · intro r rid; rw [f6]; exact id
    · intro r rid; rw [f7]; exact .inl
  | recorded b h k who voteEnd hop hauth hslot hk htgt hfree hv => exact inv_recorded hi b h k who voteEnd hfree hv
  | voted rid voter approve pub prop v v' hop hv hc =>
    refine hi.quiet (evs := []) (by simp [Quiet]) (by simp) rfl ?_ (fun _ _ => id) rfl (fun _ _ => id) (fun _ _ => .inl)
    intro x w hw
    simp only [upd_apply]
    split
    · rename_i e; rw [e, hv] at hw; cases hw
      exact ⟨v', rfl, castVote_approved hc⟩
    · exact ⟨w, hw, id⟩
  | approved rid v d pub s1 hval hv hd happ hacc =>
    obtain ⟨d', v', h1, h2, h3, h4⟩ := (sessionValid_iff s rid).1 hval
    rw [hd] at h1; cases h1
    rw [hv] at h3; cases h3
    have h0 : passCount s.log rid = 0 := by
      refine Nat.eq_zero_of_not_pos (fun hpos => ?_)
      obtain ⟨e, he, hp⟩ := List.countP_pos_iff.1 hpos
      cases e with
      | passed r h t =>
        have : r = rid := by simpa [isPassed] using hp
        subst this
        obtain ⟨d', g1, g2, _⟩ := hi.pass r h t he
        rw [hd] at g1; cases g1; rw [h4] at g2; simp at g2
      | _ => simp [isPassed] at hp
    have hnoref : ∀ r, s.extRef r ≠ some rid := by
      intro r hr
      obtain ⟨d', g1, _, g2, _⟩ := hi.ref r rid hr
      rw [hd] at g1; cases g1; rw [h4] at g2; simp at g2
    have hnorev : ∀ r, s.reviews rid ≠ some r := by
      intro r hr
      obtain ⟨d', g1, _, g2, _⟩ := hi.rev r rid hr
      rw [hd] at g1; cases g1; rw [h4] at g2; simp at g2
    have hpd : ∀ r k, upd s.pending rid.range none r = some k → s.pending r = some k ∧ r ≠ rid.range := by
      intro r k h
      rw [upd_apply] at h
      split at h
      · simp at h
      · rename_i e; exact ⟨h, e⟩
    have hev : ∀ e ∈ [Event.offence .rejectedValidRoot v.nays, .validated rid d.rootHash, .votingEnded rid true],
        (∀ r h t, e ≠ .passed r h t) ∧ (∀ r h, e = .validated r h → r = rid ∧ h = d.rootHash) ∧
        (∀ r t, e ≠ .finalised r t) := by
      intro e he
      simp only [List.mem_cons, List.not_mem_nil, or_false] at he
      rcases he with rfl | rfl | rfl
      · simp
      · refine ⟨by simp, ?_, by simp⟩
        intro r h e; cases e; exact ⟨rfl, rfl⟩
      · simp
    cases hacc with
    | processed _ hp =>
      have hs1 : s1.pending = s.pending ∧ s1.votes = s.votes ∧ s1.extRef = s.extRef ∧ s1.reviews = s.reviews ∧
          ∃ dd, getRoot s1.roots rid = some dd := by
        cases hp with
        | empty => exact ⟨rfl, rfl, rfl, rfl, d, hd⟩
        | sent tx => exact ⟨rfl, rfl, rfl, rfl, { d with txId := some tx }, by simp [getRoot_mutate, hd]⟩
        | anchored => exact ⟨rfl, rfl, rfl, rfl, d, hd⟩
      obtain ⟨q1, q2, q3, q4, dd, q5⟩ := hs1
      refine inv_processed hi hd (.inl hp) h0 (.inr ?_) ⟨v, hv, happ⟩ ?_ (by simp [markValidated, q2]) (by simp [markValidated])
        ?_ _ (by simp only [markValidated]) hev ?_ ?_
      · simp [markValidated]
      · intro x
        simp only [markValidated, getRoot_mutate]
        by_cases hx : x = rid
        · simp [hx, q5]
        · simp [hx]
      · simp only [markValidated, q1]; exact hpd
      · intro r x h
        simp only [markValidated, q3] at h
        exact ⟨h, fun e => hnoref r (by rw [← e]; exact h)⟩
      · intro x r h
        simp only [markValidated, q4] at h
        exact ⟨h, fun e => hnorev r (by rw [← e]; exact h)⟩
    | submitted hne =>
      -- as processing nothing, then adding the reference
      have hbase : Inv refOf (markValidated s rid d v) := by
        refine inv_processed (pub := none) (s1 := s) (d := d) hi hd (.inr rfl) h0 (.inr ?_) ⟨v, hv, happ⟩ ?_ (by simp [markValidated])
          (by simp [markValidated]) ?_ _ (by simp only [markValidated]) hev ?_ ?_
        · simp [markValidated]
        · intro x
          simp only [markValidated, getRoot_mutate]
          by_cases hx : x = rid
          · simp [hx, hd]
          · simp [hx]
        · simp only [markValidated]; exact hpd
        · intro r x h
          simp only [markValidated] at h
          exact ⟨h, fun e => hnoref r (by rw [← e]; exact h)⟩
        · intro x r h
          simp only [markValidated] at h
          exact ⟨h, fun e => hnorev r (by rw [← e]; exact h)⟩
      have hg : getRoot (markValidated s rid d v).roots rid = some { d with validated := true } := by
        simp [markValidated, getRoot_mutate, hd]
      have hz : passCount (markValidated s rid d v).log rid = 0 := by
        simp only [markValidated, passCount_append, h0]
        simp [passCount, isPassed]
      exact {
        rv := hbase.rv, pend := hbase.pend, pendNot := hbase.pendNot, vlog := hbase.vlog, vlog' := hbase.vlog'
        appr := hbase.appr, pass := hbase.pass, once := hbase.once, rev := hbase.rev, tx := hbase.tx, fin := hbase.fin
        finlog := hbase.finlog, notx := hbase.notx
        ref := by
          intro r x h
          change upd s.extRef (refOf rid d.rootHash) (some rid) r = some x at h
          rw [upd_apply] at h
          split at h
          · rename_i e
            cases h
            exact ⟨_, hg, e, rfl, hz⟩
          · exact hbase.ref r x h }
  | rejected rid v d creator hval hv hd happ hend hc =>
    refine hi.quiet (evs := [.offence .createdInvalidRoot [creator], .offence .approvedInvalidRoot v.ayes,
          .votingEnded rid false]) ?_ rfl rfl (fun _ v h => ⟨v, h, id⟩) ?_ rfl (fun _ _ => id) (fun _ _ => .inl)
    · intro e he
      simp only [List.mem_cons, List.not_mem_nil, or_false] at he
      rcases he with rfl | rfl | rfl <;> simp
    · intro r k h
      simp only [upd_apply] at h
      split at h
      · simp at h
      · exact h
  | resolvedAccept rid ref d pub s1 hop hr hst hd hp =>
    obtain ⟨d', g1, g2, g3, g4⟩ := hi.rev ref rid hr
    rw [hd] at g1; cases g1
    obtain ⟨q1, q2, q3, q4, q5⟩ := processed_rest hp hd
    refine inv_processed hi hd (.inl hp) g4 (.inl g3) (hi.appr rid d hd g3) ?_ q2 rfl ?_
      [.resolved rid true] rfl (by simp) ?_ ?_
    · intro x
      change getRoot s1.roots x = _
      by_cases hx : x = rid
      · obtain ⟨dd, hdd, hv⟩ := q5
        rw [if_pos hx, hx, hdd]
        simp only [Option.map_some, Option.some.injEq]
        rw [← g3, ← hv]
      · rw [if_neg hx]
    · intro r k h
      have h' : s.pending r = some k := by rw [← q1]; exact h
      refine ⟨h', ?_⟩
      rintro rfl
      have := hi.pendNot _ k rid.ingress d h' hd
      rw [g3] at this; simp at this
    · intro r x h
      simp only [cleanup, upd_apply, q3] at h
      split at h
      · simp at h
      · rename_i e
        refine ⟨h, ?_⟩
        rintro rfl
        obtain ⟨d', k1, k2, _⟩ := hi.ref r x h
        rw [hd] at k1; cases k1
        exact e (by rw [k2, g2])
    · intro x r h
      simp only [cleanup, upd_apply, q4] at h
      split at h
      · simp at h
      · rename_i e; exact ⟨h, e⟩
  | resolvedReject rid ref pub hop hr hst =>
    refine hi.quiet (evs := [.resolved rid false]) (by simp [Quiet]) rfl rfl (fun _ v h => ⟨v, h, id⟩) (fun _ _ => id) rfl ?_ ?_
    · intro r x h
      simp only [cleanup, upd_apply] at h
      split at h
      · simp at h
      · exact h
    · intro x r h
      simp only [cleanup, upd_apply] at h
      split at h
      · simp at h
      · exact .inl h
  | completed rid ref d pub s1 hop hr hd hp =>
    obtain ⟨d', g1, g2, g3, g4⟩ := hi.ref ref rid hr
    rw [hd] at g1; cases g1
    have hi' : Inv refOf { s with extStatus := upd s.extStatus rid (some .accepted) } :=
      hi.quiet (evs := []) (by simp [Quiet]) (by simp) rfl (fun _ v h => ⟨v, h, id⟩) (fun _ _ => id) rfl
        (fun _ _ => id) (fun _ _ => .inl)
    obtain ⟨q1, q2, q3, q4, q5⟩ := processed_rest hp hd
    refine inv_processed hi' hd (.inl hp) g4 (.inl g3) (hi.appr rid d hd g3) ?_ q2 rfl ?_
      [] (by simp [cleanup]) (by simp) ?_ ?_
    · intro x
      change getRoot s1.roots x = _
      by_cases hx : x = rid
      · obtain ⟨dd, hdd, hv⟩ := q5
        rw [if_pos hx, hx, hdd]
        simp only [Option.map_some, Option.some.injEq]
        rw [← g3, ← hv]
      · rw [if_neg hx]
    · intro r k h
      have h' : s.pending r = some k := by change s1.pending r = some k at h; rw [q1] at h; exact h
      refine ⟨h', ?_⟩
      rintro rfl
      have := hi.pendNot _ k rid.ingress d h' hd
      rw [g3] at this; simp at this
    · intro r x h
      simp only [cleanup, upd_apply, q3] at h
      split at h
      · simp at h
      · rename_i e
        refine ⟨h, ?_⟩
        rintro rfl
        obtain ⟨d', k1, k2, _⟩ := hi.ref r x h
        rw [hd] at k1; cases k1
        exact e (by rw [k2, g2])
    · intro x r h
      simp only [cleanup, upd_apply, q4] at h
      split at h
      · simp at h
      · rename_i e; exact ⟨h, e⟩
  | stuck rid ref pub hop hr =>
    exact hi.quiet (evs := []) (by simp [Quiet]) (by simp) rfl (fun _ v h => ⟨v, h, id⟩) (fun _ _ => id) rfl
      (fun _ _ => id) (fun _ _ => .inl)
  | review rid ref hop hr =>
    refine hi.quiet (evs := [.reviewRequested rid ref]) (by simp [Quiet]) rfl rfl (fun _ v h => ⟨v, h, id⟩) (fun _ _ => id) rfl
      (fun _ _ => id) ?_
    intro x r h
    simp only [setupReview, upd_apply] at h
    split at h
    · rename_i e; cases h; right; rw [e]; exact hr
    · exact .inl h
  | finalised rid tx hop ht =>
    obtain ⟨d, hd, k2, k3⟩ := hi.tx tx rid ht
    have hg : ∀ x, getRoot (mutateRoot s.roots rid (fun d => { d with finalised := true })) x =
        if x = rid then some { d with finalised := true } else getRoot s.roots x := by
      intro x; rw [getRoot_mutate, hd]; rfl
    have hpc : ∀ x, passCount (s.log ++ [.finalised rid tx]) x = passCount s.log x := by
      intro x; rw [passCount_append]; simp [passCount, isPassed]
    have hup : ∀ x dx, getRoot s.roots x = some dx → ∃ d', (if x = rid then some { d with finalised := true } else
        getRoot s.roots x) = some d' ∧ d'.validated = dx.validated ∧ d'.rootHash = dx.rootHash ∧ d'.txId = dx.txId ∧
        (dx.finalised = true → d'.finalised = true) := by
      intro x dx hx
      by_cases e : x = rid
      · rw [e, hd] at hx; cases hx
        exact ⟨{ d with finalised := true }, by rw [if_pos e], rfl, rfl, rfl, fun _ => rfl⟩
      · exact ⟨dx, by rw [if_neg e]; exact hx, rfl, rfl, rfl, id⟩
    have hdn : ∀ x d', (if x = rid then some { d with finalised := true } else getRoot s.roots x) = some d' →
        ∃ dx, getRoot s.roots x = some dx ∧ d'.validated = dx.validated ∧ d'.rootHash = dx.rootHash ∧ d'.txId = dx.txId ∧
          (d'.finalised = true → x = rid ∨ dx.finalised = true) := by
      intro x d' h
      by_cases e : x = rid
      · rw [if_pos e] at h; cases h
        exact ⟨d, by rw [e]; exact hd, rfl, rfl, rfl, fun _ => .inl e⟩
      · rw [if_neg e] at h; exact ⟨d', h, rfl, rfl, rfl, .inr⟩
    constructor
    · intro x d' h
      dsimp only at h; rw [hg] at h
      obtain ⟨dx, h1, _⟩ := hdn x d' h
      exact hi.rv x dx h1
    · intro r k h
      dsimp only at h ⊢; rw [hg]
      obtain ⟨dx, h1⟩ := Option.isSome_iff_exists.1 (hi.pend r k h)
      obtain ⟨d', h2, _⟩ := hup _ dx h1
      rw [h2]; rfl
    · intro r k k' d' h h'
      dsimp only at h h'; rw [hg] at h'
      obtain ⟨dx, h1, h2, _⟩ := hdn _ d' h'
      rw [h2]; exact hi.pendNot r k k' dx h h1
    · intro x h hm
      dsimp only at hm ⊢; rw [hg]
      simp only [List.mem_append, List.mem_singleton, reduceCtorEq, or_false] at hm
      obtain ⟨dx, h1, h2, h3⟩ := hi.vlog x h hm
      obtain ⟨d', g1, g2, g3, _⟩ := hup x dx h1
      exact ⟨d', g1, by rw [g2, h2], by rw [g3, h3]⟩
    · intro x d' h hv
      dsimp only at h ⊢; rw [hg] at h
      obtain ⟨dx, h1, h2, h3, _⟩ := hdn x d' h
      rw [h3]; exact List.mem_append_left _ (hi.vlog' x dx h1 (by rw [← h2]; exact hv))
    · intro x d' h hv
      dsimp only at h ⊢; rw [hg] at h
      obtain ⟨dx, h1, h2, h3, _⟩ := hdn x d' h
      exact hi.appr x dx h1 (by rw [← h2]; exact hv)
    · intro x h t hm
      dsimp only at hm ⊢; rw [hg]
      simp only [List.mem_append, List.mem_singleton, reduceCtorEq, or_false] at hm
      obtain ⟨dx, h1, h2, h3, h4, h5⟩ := hi.pass x h t hm
      obtain ⟨d', g1, g2, g3, g4, _⟩ := hup x dx h1
      exact ⟨d', g1, by rw [g2, h2], by rw [g3, h3], h4, by rw [g4, h5]⟩
    · intro x; dsimp only; rw [hpc]; exact hi.once x
    · intro r x h
      dsimp only at h ⊢; rw [hg, hpc]
      obtain ⟨dx, h1, h2, h3, h4⟩ := hi.ref r x h
      obtain ⟨d', g1, g2, g3, g4, _⟩ := hup x dx h1
      exact ⟨d', g1, by rw [g3, h2], by rw [g2, h3], h4⟩
    · intro r x h
      dsimp only at h ⊢; rw [hg, hpc]
      obtain ⟨dx, h1, h2, h3, h4⟩ := hi.rev r x h
      obtain ⟨d', g1, g2, g3, g4, _⟩ := hup x dx h1
      exact ⟨d', g1, by rw [g3, h2], by rw [g2, h3], h4⟩
    · intro t x h
      dsimp only at h ⊢; rw [hg]
      rw [upd_apply] at h
      split at h
      · simp at h
      · obtain ⟨dx, h1, h2, h3⟩ := hi.tx t x h
        obtain ⟨d', g1, g2, g3, g4, _⟩ := hup x dx h1
        exact ⟨d', g1, by rw [g4, h2], by rw [g3]; exact List.mem_append_left _ h3⟩
    · intro x d' h hf
      dsimp only at h ⊢; rw [hg] at h
      obtain ⟨dx, h1, _, _, _, h5⟩ := hdn x d' h
      rcases h5 hf with e | hf'
      · exact ⟨tx, by rw [e]; simp⟩
      · obtain ⟨t, ht⟩ := hi.fin x dx h1 hf'
        exact ⟨t, List.mem_append_left _ ht⟩
    · intro x t hm
      dsimp only at hm ⊢; rw [hg]
      rcases List.mem_append.1 hm with hm | hm
      · obtain ⟨dx, h1, h2, h3, h4⟩ := hi.finlog x t hm
        obtain ⟨d', g1, g2, g3, g4, g5⟩ := hup x dx h1
        exact ⟨d', g1, g5 h2, by rw [g4, h3], by rw [g3]; exact List.mem_append_left _ h4⟩
      · simp at hm
        obtain ⟨rfl, rfl⟩ := hm
        exact ⟨{ d with finalised := true }, by rw [if_pos rfl], rfl, k2, List.mem_append_left _ k3⟩
    · intro x d' h
      dsimp only at h ⊢; rw [hg] at h; rw [hpc]
      obtain ⟨dx, h1, _, _, h4, _⟩ := hdn x d' h
      rw [h4]; exact hi.notx x dx h1

theorem Inv.view {s s' : State} {op : Step} (hi : Inv refOf s) (h : View refOf op s s') : Inv refOf s' := by
  cases h with
  | same => exact hi
  | one h => exact hi.micro h
  | two rid x a p q v v' hop hv hc h2 => exact (hi.micro (.voted rid x a p q v v' hop hv hc)).micro (h2 op)

theorem inv_run {s : State} (hi : Inv refOf s) (steps : List Step) : Inv refOf (run refOf s steps) := by
  induction steps using List.reverseRecOn with
  | nil => exact hi
  | append_singleton steps op ih => rw [run_snoc]; exact ih.view (step_view _ op)

end Verif.Summary
