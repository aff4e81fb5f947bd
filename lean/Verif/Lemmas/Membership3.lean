import Verif.Lemmas.Membership2

/-! # Membership: blocks -/

namespace Verif.Membership

open Verif.Staking (EPar St Full EOp CRec Core Inv Eligible BestChoice)

variable {E : EPar} {pub : Nat → Option Nat}

/-- Starting an era changes the era and the selected collators. -/
structure Started (G F : Full) : Prop where
  led : F.led = { G.led with era := G.led.era + 1 }
  total : F.totalSelected = G.totalSelected
  sel : F.selected = if Staking.topCandidates G.led G.totalSelected = [] then G.selected else Staking.topCandidates G.led G.totalSelected

theorem started {G F1 : Full} {now : Nat} (hs : Staking.StartSpec E pub G F1 now) : Started G F1 := by
  obtain ⟨G1, G2, h1, h2, h3⟩ := hs.ex
  have hf : Staking.PrepFrame G G1 := by rw [h1]; exact Staking.prepIf_frame ..
  have hg := h2.frame
  subst h3
  refine ⟨?_, hg.totalSelected.trans hf.totalSelected, ?_⟩
  · show { G2.led with era := G.led.era + 1 } = _
    rw [hg.led, hf.led]
  · show G2.selected = _
    rw [← hf.led, ← hf.totalSelected, ← hf.selected]
    cases h2 with
    | kept hn hk => rw [if_pos hn, hk]
    | chosen hn l hk => rw [if_neg hn, hk]

/-- The payments of a block change balances. -/
theorem handled (hE : E.Sane) {F : Full} (h : Core E F) (pick : Nat) {G : Full}
    (hG : G = if E.par.enabled = true then Staking.handlePayouts E F F.led.era pick else F) :
    Core E G ∧ (∃ f, G.led = { F.led with free := f }) ∧ G.selected = F.selected ∧ G.totalSelected = F.totalSelected := by
  subst hG
  by_cases he : E.par.enabled = true
  · rw [if_pos he]
    have hs := Staking.handlePayouts_ok E F F.led.era pick
    have hf := hs.frame
    refine ⟨hs.core hE.par.ok hE.par.per.1 hE.delay rfl h, ?_, hf.selected, hf.totalSelected⟩
    generalize Staking.handlePayouts E F F.led.era pick = G at hs
    cases hs with
    | idle h => subst h; exact ⟨_, rfl⟩
    | ended _ _ _ _ h => subst h; exact ⟨_, rfl⟩
    | paid _ total _ h =>
      cases h with
      | paid c pts _ _ now =>
        obtain ⟨f, k, p, hq⟩ := Staking.payRewards_eq E (F.led.era - E.payDelay) c
          (Staking.rewardsOf c (perbillMul (Staking.ratio pts (F.points (F.led.era - E.payDelay))) total)
            (Staking.alGet (F.atStake (F.led.era - E.payDelay)) c Staking.Snap.zero))
          { F with awarded := upd F.awarded (F.led.era - E.payDelay) (Staking.alDel (F.awarded (F.led.era - E.payDelay)) c),
                   atStake := upd F.atStake (F.led.era - E.payDelay) (Staking.alDel (F.atStake (F.led.era - E.payDelay)) c),
                   served := F.served ++ [(F.led.era - E.payDelay, c)] }
        rw [hq] at now
        subst now
        exact ⟨f, rfl⟩
  · rw [if_neg he]; exact ⟨h, ⟨F.led.free, rfl⟩, rfl, rfl⟩

theorem eligible_congr {s s' : St} (hc : s'.cands = s.cands) (hm : s'.minCollator = s.minCollator) (a x : Nat) :
    Eligible s' a x ↔ Eligible s a x := by
  unfold Staking.Eligible; rw [hc, hm]

theorem eligible_visited {P : Staking.Par} {active : List Nat} {vm vm' : Validators.State} {s s' : St}
    (h : Visited P active vm s vm' s') (a x : Nat) : Eligible s' a x ↔ Eligible s a x := by
  rcases h.cands a with e | e
  · unfold Staking.Eligible; rw [e, h.par.minCollator]
  · constructor
    · rintro ⟨r, h1, _⟩; rw [e.gone] at h1; cases h1
    · intro hx
      obtain ⟨w, h1, _⟩ := e.was
      rw [eligible_member hx] at h1
      cases h1

theorem bestChoice_congr {s s' : St} (h : ∀ a x, Eligible s' a x ↔ Eligible s a x) {n : Nat} {l : List Nat} (hb : BestChoice s' n l) :
    BestChoice s n l := by
  refine ⟨hb.size, hb.once, ?_, ?_⟩
  · intro c hc
    obtain ⟨x, hx⟩ := hb.members c hc
    exact ⟨x, (h c x).1 hx⟩
  · intro c x hx hc
    obtain ⟨h1, h2⟩ := hb.best c x ((h c x).2 hx) hc
    exact ⟨h1, fun d hd y hy => h2 d hd y ((h d y).2 hy)⟩

/-- A block without a new session. -/
structure StillBlock (E : EPar) (c c' : Chain) : Prop where
  rest : c' = { c with stk := c'.stk }
  core : Core E c'.stk
  cands : c'.stk.led.cands = c.stk.led.cands
  era : c'.stk.led.era = c.stk.led.era
  delay : c'.stk.led.delay = c.stk.led.delay
  sel : c'.stk.selected = c.stk.selected
  tot : c'.stk.totalSelected = c.stk.totalSelected

/-- A block with a new session: `S` are the collators planned for the next one, `era` is the era in which exits are judged. -/
structure Rotation (E : EPar) (c c' : Chain) (visit : List (Nat × Nat)) (S : List Nat) (era : Nat) : Prop where
  plan : S = c.stk.selected ∧ era = c.stk.led.era ∨ S = c'.stk.selected ∧ era = c.stk.led.era + 1
  index : c'.index = c.index + 1
  sess : c'.sessionVals = c.queued.map Prod.fst
  auth : c'.authors = if c.changed then c.queued else c.authors
  queued : c'.queued = withKeys c.keys (if S = [] then c.queued.map Prod.fst else S)
  changed : c'.changed = differs (decide (S ≠ [])) c.queued c'.queued
  keys : c'.keys = c.keys
  owner : c'.owner = c.owner
  vm : Validators.SameButDone c.vm c'.vm
  agree : Agree c.vm (standing c.stk.led) → Agree c'.vm (standing c'.stk.led)
  cands : ∀ a, c'.stk.led.cands a = c.stk.led.cands a ∨
    (∃ w, standing c.stk.led a = .leaving w ∧ w ≤ era) ∧ a ∉ c.queued.map Prod.fst ∧ c'.stk.led.cands a = none
  exits : ∀ a, a ∉ c.queued.map Prod.fst →
    (∀ x ∈ c.vm.actions, x.status = .actioned → x.kind = .activation → (c.vm.rev x.account).isSome = true) →
    (∃ e w, Going c.vm e ∧ e.account = a ∧ Validators.ekey e ∈ visit ∧ standing c.stk.led a = .leaving w ∧ w ≤ era) →
    c'.stk.led.cands a = none
  core : Core E c'.stk
  era' : c'.stk.led.era = c.stk.led.era + 1
  delay : c'.stk.led.delay = c.stk.led.delay
  tot : c'.stk.totalSelected = c.stk.totalSelected
  sel : c'.stk.selected = c.stk.selected ∧ (c.stk.totalSelected = 0 ∨ ∀ a x, ¬ Eligible c.stk.led a x) ∨
    c'.stk.selected ≠ [] ∧ BestChoice c.stk.led c.stk.totalSelected c'.stk.selected

theorem sel_cases {P : Staking.Par} {s : St} (h : Inv P s) {n : Nat} {old new : List Nat}
    (e : new = if Staking.topCandidates s n = [] then old else Staking.topCandidates s n) :
    new = old ∧ (n = 0 ∨ ∀ a x, ¬ Eligible s a x) ∨ new ≠ [] ∧ BestChoice s n new := by
  by_cases ht : Staking.topCandidates s n = []
  · rw [if_pos ht] at e; exact Or.inl ⟨e, (Staking.topCandidates_nil h).1 ht⟩
  · rw [if_neg ht] at e; subst e; exact Or.inr ⟨ht, Staking.topCandidates_best h n⟩

/-- The hooks of a block never panic; it is a quiet block or one with a new session. -/
theorem block_ok (hE : E.Sane) {minV : Nat} {p : Option Validators.Entry} {c : Chain} (hv : Validators.Inv minV p c.vm) (h : Core E c.stk)
    (now author pick : Nat) (visit : List (Nat × Nat)) :
    ∃ c', block E c pub now author pick visit = some c' ∧
      ((Staking.shouldUpdate c.stk now = false ∧ c.stk.force = false ∧ StillBlock E c c') ∨
       ((Staking.shouldUpdate c.stk now = true ∨ c.stk.force = true) ∧ ∃ S era, Rotation E c c' visit S era)) := by
  have hEn : E.par.enabled = true ∨ E.par.enabled = false := by cases E.par.enabled <;> simp
  have hn := h.note author
  unfold block
  dsimp only
  unfold Staking.sessionHook
  by_cases h1 : Staking.shouldUpdate c.stk now = true
  · have h1' : Staking.shouldUpdate (Staking.noteAuthor c.stk author) now = true := h1
    rw [if_pos h1']
    dsimp only
    rw [h1', Bool.true_or, if_pos rfl]
    have hvis := visitAll_ok hE.par.ok hE.par.per.1 (c.queued.map Prod.fst) visit c.vm c.stk.led hv.uniq hv.ing h.led
    obtain ⟨c2, hc2⟩ : ∃ c2, c2 = rotate { c with stk := Staking.noteAuthor c.stk author } visit := ⟨_, rfl⟩
    rw [← hc2]
    have el : c2.stk.led = (visitAll (c.queued.map Prod.fst) visit c.vm c.stk.led).2 := by rw [hc2]; rfl
    have ev : c2.vm = (visitAll (c.queued.map Prod.fst) visit c.vm c.stk.led).1 := by rw [hc2]; rfl
    rw [← el, ← ev] at hvis
    have hcore2 : Core E c2.stk := by
      refine ⟨hvis.inv, ?_, ?_, ?_, ?_⟩
      · rw [hvis.par.era]; exact h.era
      · rw [hc2]; exact h.len
      · have : (c2.stk.selected = c.stk.selected) ∧ (c2.stk.atStake = c.stk.atStake) := by rw [hc2]; exact ⟨rfl, rfl⟩
        rw [this.1, this.2, hvis.par.era]; exact h.sel
      · have : c2.stk.locked = c.stk.locked := by rw [hc2]; rfl
        unfold Staking.potFunds
        rw [this, hvis.par.free]; exact h.pot
    have hsu : Staking.shouldUpdate c2.stk now = true := by rw [hc2]; exact h1
    obtain ⟨F1, hs1, hs2⟩ := Staking.startEra_ok (E := E) (pub := pub) hcore2.led hcore2.sel now
    have hcore1 := hs2.core hcore2
    have hst := started hs2
    rw [Staking.initHook_eq c2.stk now pick hEn F1 (by rw [if_pos hsu]; exact hs1)]
    obtain ⟨G, hG⟩ : ∃ G, G = if E.par.enabled = true then Staking.handlePayouts E F1 F1.led.era pick else F1 := ⟨_, rfl⟩
    rw [← hG]
    obtain ⟨g1, ⟨f, g2⟩, g3, g4⟩ := handled hE hcore1 pick hG
    refine ⟨{ c2 with stk := G }, rfl, Or.inr ⟨Or.inl h1, c.stk.selected, c.stk.led.era, ?_⟩⟩
    have hled : G.led.cands = c2.stk.led.cands := by rw [g2, hst.led]
    refine ⟨Or.inl ⟨rfl, rfl⟩, by rw [hc2]; rfl, by rw [hc2]; rfl, by rw [hc2]; rfl, by rw [hc2]; rfl, by rw [hc2]; rfl, by rw [hc2]; rfl,
      by rw [hc2]; rfl, hvis.same, ?_, ?_, ?_, g1, ?_, ?_, ?_, ?_⟩
    · intro ag
      exact (hvis.agree ag).stand (fun a => standing_congr (by rw [hled]))
    · intro a
      show G.led.cands a = _ ∨ _ ∧ _ ∧ G.led.cands a = none
      rw [hled]
      rcases hvis.cands a with e | e
      · exact Or.inl e
      · exact Or.inr ⟨e.was, e.idle, e.gone⟩
    · intro a hq hk hg
      show G.led.cands a = none
      rw [hled, el]
      exact visitAll_exits hE.par.ok hE.par.per.1 _ a hq visit c.vm c.stk.led hv.uniq hv.ing h.led hk (Or.inr hg)
    · show G.led.era = _
      rw [g2, hst.led]
      show c2.stk.led.era + 1 = _
      rw [hvis.par.era]
    · show G.led.delay = _
      rw [g2, hst.led]
      exact hvis.par.delay
    · show G.totalSelected = _
      rw [g4, hst.total, hc2]; rfl
    · show G.selected = _ ∧ _ ∨ G.selected ≠ [] ∧ _
      have e1 : c2.stk.totalSelected = c.stk.totalSelected := by rw [hc2]; rfl
      have e2 : c2.stk.selected = c.stk.selected := by rw [hc2]; rfl
      have e3 := hst.sel
      rw [e1, e2, ← g3] at e3
      rcases sel_cases hvis.inv e3 with ⟨q1, q2⟩ | ⟨q1, q2⟩
      · refine Or.inl ⟨q1, ?_⟩
        rcases q2 with q2 | q2
        · exact Or.inl q2
        · exact Or.inr (fun a x hx => q2 a x ((eligible_visited hvis a x).2 hx))
      · exact Or.inr ⟨q1, bestChoice_congr (eligible_visited hvis) q2⟩
  · have h1' : ¬ Staking.shouldUpdate (Staking.noteAuthor c.stk author) now = true := h1
    have h1f : Staking.shouldUpdate (Staking.noteAuthor c.stk author) now = false := by simpa using h1'
    rw [if_neg h1']
    by_cases h2 : c.stk.force = true
    · have h2' : (Staking.noteAuthor c.stk author).force = true := h2
      rw [if_pos h2']
      obtain ⟨F1, hs1, hs2⟩ := Staking.startEra_ok (E := E) (F := { Staking.noteAuthor c.stk author with force := false }) (pub := pub)
        hn.led hn.sel now
      have hnf : Core E { Staking.noteAuthor c.stk author with force := false } := ⟨hn.led, hn.era, hn.len, hn.sel, hn.pot⟩
      have hcore1 : Core E F1 := hs2.core hnf
      have hst := started hs2
      rw [hs1]
      dsimp only
      rw [h1f, h2', Bool.false_or, if_pos rfl]
      have hvis := visitAll_ok hE.par.ok hE.par.per.1 (c.queued.map Prod.fst) visit c.vm F1.led hv.uniq hv.ing hcore1.led
      obtain ⟨c2, hc2⟩ : ∃ c2, c2 = rotate { c with stk := F1 } visit := ⟨_, rfl⟩
      rw [← hc2]
      have el : c2.stk.led = (visitAll (c.queued.map Prod.fst) visit c.vm F1.led).2 := by rw [hc2]; rfl
      have ev : c2.vm = (visitAll (c.queued.map Prod.fst) visit c.vm F1.led).1 := by rw [hc2]; rfl
      rw [← el, ← ev] at hvis
      have hcore2 : Core E c2.stk := by
        refine ⟨hvis.inv, ?_, ?_, ?_, ?_⟩
        · rw [hvis.par.era]; exact hcore1.era
        · rw [hc2]; exact hcore1.len
        · have : (c2.stk.selected = F1.selected) ∧ (c2.stk.atStake = F1.atStake) := by rw [hc2]; exact ⟨rfl, rfl⟩
          rw [this.1, this.2, hvis.par.era]; exact hcore1.sel
        · have : c2.stk.locked = F1.locked := by rw [hc2]; rfl
          unfold Staking.potFunds
          rw [this, hvis.par.free]; exact hcore1.pot
      have hera := hs2.era
      have hno : ¬ Staking.shouldUpdate c2.stk now = true := by
        have e : c2.stk.first = F1.first ∧ c2.stk.length = F1.length := by rw [hc2]; exact ⟨rfl, rfl⟩
        unfold Staking.shouldUpdate
        rw [decide_eq_true_eq, e.1, e.2, hera.2.1, hera.2.2.1, Nat.sub_self]
        have : 1 ≤ (Staking.noteAuthor c.stk author).length := hn.len
        show ¬ (Staking.noteAuthor c.stk author).length ≤ 0
        omega
      rw [Staking.initHook_eq c2.stk now pick hEn c2.stk (by rw [if_neg hno])]
      obtain ⟨G, hG⟩ : ∃ G, G = if E.par.enabled = true then Staking.handlePayouts E c2.stk c2.stk.led.era pick else c2.stk := ⟨_, rfl⟩
      rw [← hG]
      obtain ⟨g1, ⟨f, g2⟩, g3, g4⟩ := handled hE hcore2 pick hG
      have e2 : c2.stk.selected = F1.selected := by rw [hc2]; rfl
      have hcF : F1.led.cands = c.stk.led.cands := by rw [hst.led]; rfl
      have hsF : ∀ a, standing F1.led a = standing c.stk.led a := fun a => standing_congr (by rw [hcF])
      have heF : F1.led.era = c.stk.led.era + 1 := by rw [hst.led]; rfl
      have hled : G.led.cands = c2.stk.led.cands := by rw [g2]
      refine ⟨{ c2 with stk := G }, rfl, Or.inr ⟨Or.inr h2, F1.selected, c.stk.led.era + 1, ?_⟩⟩
      refine ⟨Or.inr ⟨by show F1.selected = G.selected; rw [g3, e2], rfl⟩, by rw [hc2]; rfl, by rw [hc2]; rfl, by rw [hc2]; rfl, by rw [hc2]; rfl, by rw [hc2]; rfl, by rw [hc2]; rfl,
        by rw [hc2]; rfl, hvis.same, ?_, ?_, ?_, g1, ?_, ?_, ?_, ?_⟩
      · intro ag
        exact (hvis.agree (ag.stand hsF)).stand (fun a => standing_congr (by rw [hled]))
      · intro a
        show G.led.cands a = _ ∨ _ ∧ _ ∧ G.led.cands a = none
        rw [hled]
        rcases hvis.cands a with e | e
        · exact Or.inl (e.trans (by rw [hcF]))
        · obtain ⟨w, w1, w2⟩ := e.was
          exact Or.inr ⟨⟨w, by rw [← hsF]; exact w1, by rw [← heF]; exact w2⟩, e.idle, e.gone⟩
      · intro a hq hk hg
        show G.led.cands a = none
        rw [hled, el]
        obtain ⟨e, w, q1, q2, q3, q4, q5⟩ := hg
        exact visitAll_exits hE.par.ok hE.par.per.1 _ a hq visit c.vm F1.led hv.uniq hv.ing hcore1.led hk
          (Or.inr ⟨e, w, q1, q2, q3, by rw [hsF]; exact q4, by rw [heF]; exact q5⟩)
      · show G.led.era = _
        rw [g2]
        show c2.stk.led.era = _
        rw [hvis.par.era, heF]
      · show G.led.delay = _
        rw [g2]
        show c2.stk.led.delay = _
        rw [hvis.par.delay, hst.led]; rfl
      · show G.totalSelected = _
        have : c2.stk.totalSelected = F1.totalSelected := by rw [hc2]; rfl
        rw [g4, this, hst.total]; rfl
      · show G.selected = _ ∧ _ ∨ G.selected ≠ [] ∧ _
        have e3 := hst.sel
        rw [← e2, ← g3] at e3
        exact sel_cases h.led e3
    · have h2' : ¬ (Staking.noteAuthor c.stk author).force = true := h2
      have h2f : (Staking.noteAuthor c.stk author).force = false := by simpa using h2'
      rw [if_neg h2']
      dsimp only
      rw [h1f, h2f, Bool.false_or, if_neg (by decide)]
      have e := Staking.initHook_eq (E := E) (pub := pub) (Staking.noteAuthor c.stk author) now pick hEn (Staking.noteAuthor c.stk author)
        (by rw [if_neg h1'])
      rw [e]
      obtain ⟨G, hG⟩ : ∃ G, G = if E.par.enabled = true then
        Staking.handlePayouts E (Staking.noteAuthor c.stk author) (Staking.noteAuthor c.stk author).led.era pick
        else Staking.noteAuthor c.stk author := ⟨_, rfl⟩
      rw [← hG]
      obtain ⟨g1, ⟨f, g2⟩, g3, g4⟩ := handled hE hn pick hG
      refine ⟨{ c with stk := G }, rfl, Or.inl ⟨by simpa using h1, by simpa using h2, rfl, g1, ?_, ?_, ?_, g3, g4⟩⟩
      · show G.led.cands = _; rw [g2]; rfl
      · show G.led.era = _; rw [g2]; rfl
      · show G.led.delay = _; rw [g2]; rfl

end Verif.Membership
