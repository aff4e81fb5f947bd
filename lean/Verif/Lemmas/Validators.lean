import Verif.Model.Validators
import Mathlib.Data.List.Induction
import Mathlib.Data.List.Nodup

namespace Verif.Validators

/-- The two keys of an action entry. -/
def ekey (e : Entry) : Nat × Nat := (e.account, e.ingress)

theorem eq_of_ekey {l : List Entry} (h : (l.map ekey).Nodup) {e e' : Entry} (h1 : e ∈ l) (h2 : e' ∈ l)
    (hk : ekey e = ekey e') : e = e' := List.inj_on_of_nodup_map h h1 h2 hk

theorem mem_dropAction {l : List Entry} {a i : Nat} {e : Entry} :
    e ∈ dropAction l a i ↔ e ∈ l ∧ ekey e ≠ (a, i) := by
  simp only [dropAction, ekey, List.mem_filter, Bool.not_eq_true', Bool.and_eq_false_iff, beq_eq_false_iff_ne, ne_eq,
    Prod.mk.injEq, not_and]
  constructor
  · rintro ⟨h, h1 | h1⟩
    · exact ⟨h, fun h2 => absurd h2 h1⟩
    · exact ⟨h, fun _ => h1⟩
  · rintro ⟨h, h1⟩
    refine ⟨h, ?_⟩
    by_cases h2 : e.account = a
    · exact Or.inr (h1 h2)
    · exact Or.inl h2

theorem nodup_dropAction {l : List Entry} (a i : Nat) (h : (l.map ekey).Nodup) : ((dropAction l a i).map ekey).Nodup :=
  h.sublist (List.Sublist.map _ List.filter_sublist)

/-- A map over entries which changes only the entry `(a, i)` and keeps its keys. -/
theorem nodup_mapAction {l : List Entry} (f : Entry → Entry) (hf : ∀ e, ekey (f e) = ekey e) (h : (l.map ekey).Nodup) :
    ((l.map f).map ekey).Nodup := by
  have : (l.map f).map ekey = l.map ekey := by
    rw [List.map_map]; apply List.map_congr_left; intro e _; exact hf e
  rw [this]; exact h

theorem getAction_some {s : State} {a i : Nat} {e : Entry} (h : getAction s a i = some e) :
    e ∈ s.actions ∧ ekey e = (a, i) := by
  unfold getAction at h
  have h1 := List.mem_of_find?_eq_some h
  have h2 := List.find?_some h
  simp at h2
  exact ⟨h1, by simp [ekey, h2]⟩

theorem getAction_of_mem {s : State} (hn : (s.actions.map ekey).Nodup) {e : Entry} (h : e ∈ s.actions) :
    getAction s e.account e.ingress = some e := by
  cases hg : getAction s e.account e.ingress with
  | none =>
    unfold getAction at hg
    have := List.find?_eq_none.mp hg e h
    simp at this
  | some e' =>
    have := getAction_some hg
    rw [eq_of_ekey hn this.1 h (by rw [this.2]; rfl)]

theorem getAction_none {s : State} {a i : Nat} (h : getAction s a i = none) {e : Entry} (he : e ∈ s.actions) :
    ekey e ≠ (a, i) := by
  unfold getAction at h
  have := List.find?_eq_none.mp h e he
  simpa [ekey] using this

/-- The invariant; `p` is the change in flight. -/
structure Inv (minV : Nat) (p : Option Entry) (s : State) : Prop where
  nodup : s.validators.Nodup
  lo : minV ≤ s.validators.length
  hi : s.validators.length ≤ maxValidators
  bij : ∀ k a, s.keys k = some a ↔ s.rev a = some k
  hasKey : ∀ a ∈ s.validators, (s.rev a).isSome
  keyOf : ∀ a k, s.rev a = some k → a ∈ s.validators ∨ ∃ e, p = some e ∧ e.account = a ∧ e.kind = .registration
  depOf : ∀ a d, s.deposits a = some d → ∃ e, p = some e ∧ e.account = a ∧ e.kind = .registration
  uniq : (s.actions.map ekey).Nodup
  ing : ∀ e ∈ s.actions, e.ingress ≤ s.ingress
  pend : ∀ e, (e ∈ s.actions ∧ e.status = .awaiting) ↔ p = some e
  tx : ∀ t, s.txMap t = p.bind fun e => if t = e.tx then some (e.account, e.ingress) else none
  pok : ∀ e, p = some e → e.tx < s.nextTx ∧ .published e.tx e.kind e.account ∈ s.log ∧ (∀ ok, .answered e.tx ok ∉ s.log) ∧
    (e.kind = .registration ∧ e.account ∉ s.validators ∧ s.validators.length < maxValidators ∧ (s.rev e.account).isSome ∨
      e.kind = .resignation ∧ e.account ∈ s.validators ∧ minV < s.validators.length)
  logP : ∀ t k a, .published t k a ∈ s.log → t < s.nextTx ∧
    ((∃ ok, .answered t ok ∈ s.log) ∨ ∃ e, p = some e ∧ e.tx = t ∧ e.kind = k ∧ e.account = a)
  logA : ∀ t ok, .answered t ok ∈ s.log → t < s.nextTx

/-- What a new session can do. -/
structure SameButDone (s s' : State) : Prop where
  eq : s' = { s with actions := s'.actions }
  uniq : (s'.actions.map ekey).Nodup
  ing : ∀ e ∈ s'.actions, e.ingress ≤ s.ingress
  aw : ∀ e : Entry, e.status = .awaiting → (e ∈ s'.actions ↔ e ∈ s.actions)

/-- The resulting state of a failed registration. -/
def failReg (s : State) (t a i k : Nat) : State :=
  { s with
    txMap := upd s.txMap t none
    log := s.log ++ [.answered t false]
    keys := upd s.keys k none
    rev := upd s.rev a none
    deposits := upd s.deposits a none
    actions := dropAction s.actions a i }

/-- The resulting state of a failed resignation. -/
def failRes (s : State) (t a i : Nat) : State :=
  { s with
    txMap := upd s.txMap t none
    log := s.log ++ [.answered t false]
    actions := dropAction s.actions a i }

/-- The resulting state of a completed registration. -/
def joined (s : State) (t a i : Nat) : State :=
  { s with
    txMap := upd s.txMap t none
    log := s.log ++ [.answered t true]
    validators := s.validators ++ [a]
    deposits := upd s.deposits a none
    actions := setAction s.actions a i .actioned .activation }

/-- The resulting state of a completed resignation. -/
def left (s : State) (t a i k : Nat) : State :=
  { s with
    txMap := upd s.txMap t none
    log := s.log ++ [.answered t true]
    validators := s.validators.filter fun v => v != a
    keys := upd s.keys k none
    rev := upd s.rev a none
    actions := s.actions.map fun e => if e.account == a && e.ingress == i then { e with status := .actioned } else e }

/-- The state after a key rotation. -/
def rotated (s : State) (a old new : Nat) : State :=
  { s with keys := upd (upd s.keys old none) new (some a), rev := upd s.rev a (some new) }

/-- The state after a registration request. -/
def requested (s : State) (a k d : Nat) : State :=
  recordAction { s with deposits := upd s.deposits a (some d), keys := upd s.keys k (some a), rev := upd s.rev a (some k) }
    a .registration

/-- The state after a use of the bridge by another pallet. -/
def otherUse (s : State) : State := { s with nextTx := s.nextTx + 1 }

/-- What one step can do. -/
inductive View (minV : Nat) (p : Option Entry) (s : State) (x : Step) : State → Prop
  | same : View minV p s x s
  | other (hx : x = .otherPublish) : View minV p s x (otherUse s)
  | requested (a k d : Nat) (hx : ∃ sk st ko bo, x = .add a k d sk st ko bo) (h1 : a ∉ s.validators) (h2 : s.keys k = none)
      (h3 : s.validators.length < maxValidators) (h4 : hasActive s = false) : View minV p s x (requested s a k d)
  | resigned (a k : Nat) (hx : ∃ ko bo, x = .remove a ko bo) (h1 : a ∈ s.validators) (h2 : s.rev a = some k)
      (h3 : minV < s.validators.length) (h4 : hasActive s = false) : View minV p s x (recordAction s a .resignation)
  | rotated (a old new : Nat) (hx : x = .rotate a old new) (h1 : s.keys new = none) (h2 : old ≠ new) (h3 : s.keys old = some a) :
      View minV p s x (rotated s a old new)
  | failReg (e : Entry) (k : Nat) (hx : (∃ st, x = .bridgeResult e.tx true false st) ∨ x = .bridgeDropped e.tx true)
      (hp : p = some e) (hk : e.kind = .registration) (h : s.rev e.account = some k) :
      View minV p s x (failReg s e.tx e.account e.ingress k)
  | failRes (e : Entry) (hx : (∃ st, x = .bridgeResult e.tx true false st) ∨ x = .bridgeDropped e.tx true)
      (hp : p = some e) (hk : e.kind = .resignation) : View minV p s x (failRes s e.tx e.account e.ingress)
  | joined (e : Entry) (hx : x = .bridgeResult e.tx true true true) (hp : p = some e) (hk : e.kind = .registration) :
      View minV p s x (joined s e.tx e.account e.ingress)
  | left (e : Entry) (k : Nat) (hx : x = .bridgeResult e.tx true true true) (hp : p = some e) (hk : e.kind = .resignation)
      (h : s.rev e.account = some k) : View minV p s x (left s e.tx e.account e.ingress k)
  | session (s' : State) (hx : ∃ act dis ex vis, x = .session act dis ex vis) (h : SameButDone s s') : View minV p s x s'

theorem addCollator_view (minV : Nat) (p : Option Entry) (s : State) (a k d : Nat) (sk st ko bo : Bool) :
    View minV p s (.add a k d sk st ko bo) (commit s (addCollator s a k d sk st ko bo)) := by
  unfold addCollator
  by_cases h0 : s.validators = []
  · rw [if_pos h0]; exact .same
  rw [if_neg h0]
  by_cases h1 : a ∈ s.validators
  · rw [if_pos h1]; exact .same
  rw [if_neg h1]
  by_cases h2 : (s.keys k).isSome = true
  · rw [if_pos h2]; exact .same
  rw [if_neg h2]
  by_cases h3 : maxValidators ≤ s.validators.length
  · rw [if_pos h3]; exact .same
  rw [if_neg h3]
  by_cases h4 : (!sk) = true
  · rw [if_pos h4]; exact .same
  rw [if_neg h4]
  by_cases h5 : hasActive s = true
  · rw [if_pos h5]; exact .same
  rw [if_neg h5]
  by_cases h6 : (!st) = true
  · rw [if_pos h6]; exact .same
  rw [if_neg h6]
  by_cases h7 : (!ko) = true
  · rw [if_pos h7]; exact .same
  rw [if_neg h7]
  by_cases h8 : (!bo) = true
  · rw [if_pos h8]; exact .same
  rw [if_neg h8]
  exact .requested a k d ⟨_, _, _, _, rfl⟩ h1 (by simpa using h2) (by omega) (by simpa using h5)

theorem removeValidator_view (minV : Nat) (p : Option Entry) (s : State) (a : Nat) (ko bo : Bool) :
    View minV p s (.remove a ko bo) (commit s (removeValidator minV s a ko bo)) := by
  unfold removeValidator
  by_cases h0 : s.validators.length ≤ minV
  · rw [if_pos h0]; exact .same
  rw [if_neg h0]
  by_cases h1 : a ∉ s.validators
  · rw [if_pos h1]; exact .same
  rw [if_neg h1]
  by_cases h5 : hasActive s = true
  · rw [if_pos h5]; exact .same
  rw [if_neg h5]
  cases hr : s.rev a with
  | none => exact .same
  | some k =>
    dsimp only
    by_cases h7 : (!ko) = true
    · rw [if_pos h7]; exact .same
    rw [if_neg h7]
    by_cases h8 : (!bo) = true
    · rw [if_pos h8]; exact .same
    rw [if_neg h8]
    exact .resigned a k ⟨_, _, rfl⟩ (by simpa using h1) hr (by omega) (by simpa using h5)

theorem rotateKey_view (minV : Nat) (p : Option Entry) (s : State) (a old new : Nat) :
    View minV p s (.rotate a old new) (commit s (rotateKey s a old new)) := by
  unfold rotateKey
  by_cases h0 : (s.keys new).isSome = true
  · rw [if_pos h0]; exact .same
  rw [if_neg h0]
  by_cases h1 : old = new
  · rw [if_pos h1]; exact .same
  rw [if_neg h1]
  cases hr : s.keys old with
  | none => exact .same
  | some b =>
    dsimp only
    by_cases h2 : b ≠ a
    · rw [if_pos h2]; exact .same
    rw [if_neg h2]
    have : b = a := by simpa using h2
    subst this
    exact .rotated b old new rfl (by simpa using h0) h1 hr

theorem Inv.pending {minV : Nat} {p : Option Entry} {s : State} (hi : Inv minV p s) {t a i : Nat} (h : s.txMap t = some (a, i)) :
    ∃ e, p = some e ∧ e.tx = t ∧ e.account = a ∧ e.ingress = i ∧ getAction s a i = some e := by
  rw [hi.tx] at h
  cases p with
  | none => cases h
  | some e =>
    simp only [Option.bind_some] at h
    split at h
    · rename_i ht
      simp only [Option.some.injEq, Prod.mk.injEq] at h
      obtain ⟨rfl, rfl⟩ := h
      exact ⟨e, rfl, ht.symm, rfl, rfl, getAction_of_mem hi.uniq ((hi.pend e).mpr rfl).1⟩
    · cases h

/-- The outcome of `process_result`. -/
theorem processResult_view {minV : Nat} {p : Option Entry} {s : State} (hi : Inv minV p s) (t : Nat) (mine ok st : Bool)
    (x : Step) (hx : mine = true → ok = true → st = true → x = .bridgeResult t true true true)
    (hx' : mine = true → ok = false → (∃ st, x = .bridgeResult t true false st) ∨ x = .bridgeDropped t true) :
    (View minV p s x (processResult s t mine ok st).1 ∧ (processResult s t mine ok st).2 = none) ∨
      ok = true ∧ (processResult s t mine ok st).2 ≠ none := by
  unfold processResult
  cases mine with
  | false => exact Or.inl ⟨.same, rfl⟩
  | true =>
  simp only [Bool.not_true, Bool.false_eq_true, if_false]
  cases ht : s.txMap t with
  | none => exact Or.inl ⟨.same, rfl⟩
  | some q =>
  obtain ⟨a, i⟩ := q
  obtain ⟨e, hp, h1, h2, h3, h4⟩ := hi.pending ht
  have h4' : getAction { s with txMap := upd s.txMap t none } a i = some e := h4
  dsimp only
  rw [h4']
  dsimp only
  have hk := (hi.pok e hp).2.2.2
  subst h1 h2 h3
  cases ok with
  | false =>
    simp only [Bool.not_false, if_true]
    rcases hk with ⟨hk, hk2⟩ | ⟨hk, hk2⟩
    · rw [if_pos hk]
      refine Or.inl ⟨?_, rfl⟩
      obtain ⟨k, hrev⟩ := Option.isSome_iff_exists.mp hk2.2.2
      have hc : cleanupRegistration { s with txMap := upd s.txMap e.tx none, log := s.log ++ [.answered e.tx false] }
          e.account e.ingress true = failReg s e.tx e.account e.ingress k := by
        simp [cleanupRegistration, removeKey, hrev, failReg]
      rw [hc]
      exact .failReg e k (hx' rfl rfl) hp hk hrev
    · have : e.kind ≠ .registration := by rw [hk]; decide
      rw [if_neg this]
      exact Or.inl ⟨.failRes e (hx' rfl rfl) hp hk, rfl⟩
  | true =>
    simp only [Bool.not_true, Bool.false_eq_true, if_false]
    rcases hk with ⟨hk, hk2⟩ | ⟨hk, hk2⟩
    · rw [if_pos hk]
      unfold completeRegistration
      have : ¬ maxValidators ≤ s.validators.length := by omega
      dsimp only
      rw [if_neg this]
      cases st with
      | false => right; exact ⟨trivial, by simp⟩
      | true =>
        left
        exact ⟨.joined e (hx rfl rfl rfl) hp hk, rfl⟩
    · have : e.kind ≠ .registration := by rw [hk]; decide
      rw [if_neg this, if_pos hk]
      unfold completeDeregistration
      cases st with
      | false => right; exact ⟨trivial, by simp⟩
      | true =>
        left
        obtain ⟨k, hrev⟩ := Option.isSome_iff_exists.mp (hi.hasKey _ hk2.1)
        refine ⟨?_, rfl⟩
        simp only [Bool.not_true, Bool.false_eq_true, if_false, removeKey, hrev]
        exact .left e k (hx rfl rfl rfl) hp hk hrev

theorem SameButDone.refl {s : State} (h1 : (s.actions.map ekey).Nodup) (h2 : ∀ e ∈ s.actions, e.ingress ≤ s.ingress) :
    SameButDone s s := ⟨rfl, h1, h2, fun _ _ => Iff.rfl⟩

theorem SameButDone.trans {s s' s'' : State} (h : SameButDone s s') (h' : SameButDone s' s'') : SameButDone s s'' := by
  refine ⟨?_, h'.uniq, ?_, fun e he => (h'.aw e he).trans (h.aw e he)⟩
  · have h1 := h.eq
    have h2 := h'.eq
    rw [h1] at h2
    exact h2
  · intro e he
    have h1 := h.eq
    have : s'.ingress = s.ingress := by rw [h1]
    rw [← this]; exact h'.ing e he

theorem SameButDone.set {s : State} (h1 : (s.actions.map ekey).Nodup) (h2 : ∀ e ∈ s.actions, e.ingress ≤ s.ingress)
    {e : Entry} (he : e ∈ s.actions) (hs : e.status ≠ .awaiting) (k : Kind) :
    SameButDone s { s with actions := setAction s.actions e.account e.ingress .confirmed k } := by
  have key : ∀ e', e' ∈ s.actions → (e'.account == e.account && e'.ingress == e.ingress) = true → e' = e := by
    intro e' he' hk
    refine eq_of_ekey h1 he' he ?_
    simp at hk
    simp [ekey, hk]
  refine ⟨rfl, ?_, ?_, ?_⟩
  · apply nodup_mapAction _ _ h1
    intro e'; split <;> rfl
  · intro e' he'
    simp only [setAction, List.mem_map] at he'
    obtain ⟨e0, h0, rfl⟩ := he'
    split <;> exact h2 e0 h0
  · intro e' hs'
    simp only [setAction, List.mem_map]
    constructor
    · rintro ⟨e0, h0, rfl⟩
      split at hs'
      · cases hs'
      · rename_i hc; rw [if_neg hc]; exact h0
    · intro h0
      refine ⟨e', h0, ?_⟩
      rw [if_neg]
      intro hc
      rw [key e' h0 hc] at hs'
      exact hs hs'

theorem SameButDone.drop {s : State} (h1 : (s.actions.map ekey).Nodup) (h2 : ∀ e ∈ s.actions, e.ingress ≤ s.ingress)
    {e : Entry} (he : e ∈ s.actions) (hs : e.status ≠ .awaiting) :
    SameButDone s { s with actions := dropAction s.actions e.account e.ingress } := by
  refine ⟨rfl, nodup_dropAction _ _ h1, fun e' he' => h2 e' (mem_dropAction.mp he').1, ?_⟩
  intro e' hs'
  constructor
  · exact fun h => (mem_dropAction.mp h).1
  · intro h
    refine mem_dropAction.mpr ⟨h, ?_⟩
    intro hk
    rw [eq_of_ekey h1 h he hk] at hs'
    exact hs hs'

theorem newSession_same (act dis : List Nat) (ex : Nat → Bool) :
    ∀ (vis : List (Nat × Nat)) (s : State), (s.actions.map ekey).Nodup → (∀ e ∈ s.actions, e.ingress ≤ s.ingress) →
      SameButDone s (newSession act dis ex vis s)
  | [], s, h1, h2 => .refl h1 h2
  | (a, i) :: rest, s, h1, h2 => by
    unfold newSession
    cases hg : getAction s a i with
    | none => exact newSession_same act dis ex rest s h1 h2
    | some e =>
      obtain ⟨hm, hk⟩ := getAction_some hg
      simp only [ekey, Prod.mk.injEq] at hk
      obtain ⟨rfl, rfl⟩ := hk
      dsimp only
      have hset : e.status ≠ .awaiting → ∀ (k : Kind), SameButDone s (newSession act dis ex rest
          { s with actions := setAction s.actions e.account e.ingress .confirmed k }) := by
        intro hs k
        have h := SameButDone.set h1 h2 hm hs k
        exact h.trans (newSession_same act dis ex rest _ h.uniq h.ing)
      by_cases c1 : e.status = .actioned ∧ e.kind = .resignation
      · rw [if_pos c1]
        have hs : e.status ≠ .awaiting := by rw [c1.1]; decide
        split
        · exact hset hs _
        · exact newSession_same act dis ex rest s h1 h2
      rw [if_neg c1]
      by_cases c2 : e.status = .actioned ∧ e.kind = .activation
      · rw [if_pos c2]
        have hs : e.status ≠ .awaiting := by rw [c2.1]; decide
        split
        · split
          · exact hset hs _
          · exact .set h1 h2 hm hs _
        · exact newSession_same act dis ex rest s h1 h2
      rw [if_neg c2]
      by_cases c3 : e.status = .confirmed
      · rw [if_pos c3]
        have hs : e.status ≠ .awaiting := by rw [c3]; decide
        have h := SameButDone.drop h1 h2 hm hs
        exact h.trans (newSession_same act dis ex rest _ h.uniq h.ing)
      · rw [if_neg c3]
        exact newSession_same act dis ex rest s h1 h2

theorem step_view {minV : Nat} {p : Option Entry} {s : State} (hi : Inv minV p s) (x : Step) :
    View minV p s x (step minV s x) := by
  cases x with
  | add a k d sk st ko bo => exact addCollator_view ..
  | remove a ko bo => exact removeValidator_view ..
  | rotate a o n => exact rotateKey_view ..
  | otherPublish => exact .other rfl
  | bridgeResult t m ok st =>
    have h := processResult_view hi t m ok st (.bridgeResult t m ok st) (by rintro rfl rfl rfl; rfl)
      (by rintro rfl rfl; exact Or.inl ⟨_, rfl⟩)
    simp only [step]
    rcases hr : processResult s t m ok st with ⟨s', r⟩
    rw [hr] at h
    rcases h with ⟨h1, h2⟩ | ⟨h1, h2⟩
    · dsimp only at h1 h2; subst h2; exact h1
    · dsimp only at h2
      cases r with
      | none => exact absurd rfl h2
      | some r => exact .same
  | bridgeDropped t m =>
    have h := processResult_view hi t m false false (.bridgeDropped t m) (by rintro rfl h; cases h)
      (by rintro rfl _; exact Or.inr rfl)
    rcases h with ⟨h1, h2⟩ | ⟨h1, h2⟩
    · exact h1
    · cases h1
  | session act dis ex vis => exact .session _ ⟨_, _, _, _, rfl⟩ (newSession_same act dis ex vis s hi.uniq hi.ing)

/-- Nothing is in flight when no action is active. -/
theorem Inv.none_of_inactive {minV : Nat} {p : Option Entry} {s : State} (hi : Inv minV p s) (h : hasActive s = false) :
    p = none := by
  cases p with
  | none => rfl
  | some e =>
    obtain ⟨h1, h2⟩ := (hi.pend e).mpr rfl
    unfold hasActive at h
    rw [List.any_eq_false] at h
    have := h e h1
    rw [h2] at this
    simp [isActive] at this

theorem Inv.record {minV : Nat} {s : State} (hi : Inv minV none s) (a : Nat) (kd : Kind)
    (keys rev : Nat → Option Nat) (dep : Nat → Option Nat)
    (hb : ∀ k a, keys k = some a ↔ rev a = some k)
    (hk : ∀ v ∈ s.validators, (rev v).isSome)
    (hko : ∀ v k, rev v = some k → v ∈ s.validators ∨ v = a ∧ kd = .registration)
    (hd : ∀ v d, dep v = some d → v = a ∧ kd = .registration)
    (hok : kd = .registration ∧ a ∉ s.validators ∧ s.validators.length < maxValidators ∧ (rev a).isSome ∨
      kd = .resignation ∧ a ∈ s.validators ∧ minV < s.validators.length) :
    Inv minV (some ⟨a, s.ingress + 1, .awaiting, s.nextTx, kd⟩)
      (recordAction { s with keys := keys, rev := rev, deposits := dep } a kd) := by
  have hno : ∀ e ∈ s.actions, e.status ≠ .awaiting := by
    intro e he h
    have := (hi.pend e).mp ⟨he, h⟩
    cases this
  refine ⟨hi.nodup, hi.lo, hi.hi, hb, hk, ?_, ?_, ?_, ?_, ?_, ?_, ?_, ?_, ?_⟩
  · intro v k h
    rcases hko v k h with h1 | ⟨h1, h2⟩
    · exact Or.inl h1
    · exact Or.inr ⟨_, rfl, h1.symm, h2⟩
  · intro v d h
    obtain ⟨h1, h2⟩ := hd v d h
    exact ⟨_, rfl, h1.symm, h2⟩
  · simp only [recordAction, List.map_cons, List.nodup_cons]
    refine ⟨?_, nodup_dropAction _ _ hi.uniq⟩
    simp only [List.mem_map, not_exists, not_and]
    intro e he h
    exact (mem_dropAction.mp he).2 h
  · intro e he
    simp only [recordAction, List.mem_cons] at he
    simp only [recordAction]
    rcases he with rfl | he
    · exact Nat.le_refl _
    · have := hi.ing e (mem_dropAction.mp he).1
      omega
  · intro e
    simp only [recordAction, List.mem_cons, Option.some.injEq]
    constructor
    · rintro ⟨rfl | he, h⟩
      · rfl
      · exact absurd h (hno e (mem_dropAction.mp he).1)
    · rintro rfl; exact ⟨Or.inl rfl, rfl⟩
  · intro t
    simp only [recordAction, Option.bind_some, upd_apply]
    split
    · rfl
    · rw [hi.tx]; rfl
  · intro e he
    simp only [Option.some.injEq] at he
    subst he
    refine ⟨Nat.lt_succ_self _, by simp [recordAction], ?_, hok⟩
    intro ok hmem
    simp only [recordAction, List.mem_append, List.mem_singleton, reduceCtorEq, or_false] at hmem
    exact absurd (hi.logA _ _ hmem) (Nat.lt_irrefl _)
  · intro t k v h
    simp only [recordAction, List.mem_append, List.mem_singleton, Obs.published.injEq] at h
    rcases h with h | ⟨rfl, rfl, rfl⟩
    · obtain ⟨h1, h2⟩ := hi.logP _ _ _ h
      refine ⟨Nat.lt_succ_of_lt h1, ?_⟩
      rcases h2 with ⟨ok, h2⟩ | ⟨e, h2, _⟩
      · exact Or.inl ⟨ok, by simp [recordAction, h2]⟩
      · cases h2
    · exact ⟨Nat.lt_succ_self _, Or.inr ⟨_, rfl, rfl, rfl, rfl⟩⟩
  · intro t ok h
    simp only [recordAction, List.mem_append, List.mem_singleton, reduceCtorEq, or_false] at h
    exact Nat.lt_succ_of_lt (hi.logA _ _ h)

theorem upd_tx_none {minV : Nat} {e : Entry} {s : State} (hi : Inv minV (some e) s) (t : Nat) : upd s.txMap e.tx none t = none := by
  rw [upd_apply]
  split
  · rfl
  · rename_i h
    rw [hi.tx]
    simp [h]

theorem Inv.logP' {minV : Nat} {e : Entry} {s : State} (hi : Inv minV (some e) s) (ok : Bool) (t : Nat) (k : Kind) (a : Nat)
    (h : .published t k a ∈ s.log ++ [.answered e.tx ok]) :
    t < s.nextTx ∧ ((∃ ok', .answered t ok' ∈ s.log ++ [.answered e.tx ok]) ∨
      ∃ e', (none : Option Entry) = some e' ∧ e'.tx = t ∧ e'.kind = k ∧ e'.account = a) := by
  simp only [List.mem_append, List.mem_singleton, reduceCtorEq, or_false] at h
  obtain ⟨h1, h2⟩ := hi.logP _ _ _ h
  refine ⟨h1, Or.inl ?_⟩
  rcases h2 with ⟨ok', h2⟩ | ⟨e', h2, h3, _⟩
  · exact ⟨ok', by simp [h2]⟩
  · simp only [Option.some.injEq] at h2
    subst h2
    exact ⟨ok, by simp [h3]⟩

theorem Inv.logA' {minV : Nat} {e : Entry} {s : State} (hi : Inv minV (some e) s) (ok : Bool) (t : Nat) (ok' : Bool)
    (h : .answered t ok' ∈ s.log ++ [.answered e.tx ok]) : t < s.nextTx := by
  simp only [List.mem_append, List.mem_singleton, Obs.answered.injEq] at h
  rcases h with h | ⟨rfl, _⟩
  · exact hi.logA _ _ h
  · exact (hi.pok e rfl).1

/-- Dropping the entry in flight leaves no awaiting entry. -/
theorem Inv.drop_pend {minV : Nat} {e : Entry} {s : State} (hi : Inv minV (some e) s) (e' : Entry) :
    (e' ∈ dropAction s.actions e.account e.ingress ∧ e'.status = .awaiting) ↔ none = some e' := by
  constructor
  · rintro ⟨h1, h2⟩
    obtain ⟨h1, h3⟩ := mem_dropAction.mp h1
    have := (hi.pend e').mp ⟨h1, h2⟩
    simp only [Option.some.injEq] at this
    subst this
    exact absurd rfl h3
  · intro h; cases h

/-- Taking the entry in flight out of the awaiting status leaves no awaiting entry. -/
theorem Inv.map_pend {minV : Nat} {e : Entry} {s : State} (hi : Inv minV (some e) s) (f : Entry → Entry)
    (hf : ∀ e', (f e').status = if e'.account == e.account && e'.ingress == e.ingress then .actioned else e'.status) (e' : Entry) :
    (e' ∈ s.actions.map f ∧ e'.status = .awaiting) ↔ none = some e' := by
  constructor
  · rintro ⟨h1, h2⟩
    obtain ⟨e0, h0, rfl⟩ := List.mem_map.mp h1
    rw [hf] at h2
    split at h2
    · cases h2
    · rename_i hc
      have := (hi.pend e0).mp ⟨h0, h2⟩
      simp only [Option.some.injEq] at this
      subst this
      simp at hc
  · intro h; cases h

theorem bij_erase {keys rev : Nat → Option Nat} (h : ∀ k a, keys k = some a ↔ rev a = some k) {k a : Nat} (hr : rev a = some k)
    (k' a' : Nat) : upd keys k none k' = some a' ↔ upd rev a none a' = some k' := by
  rw [upd_apply, upd_apply]
  by_cases h1 : k' = k
  · subst h1
    rw [if_pos rfl]
    by_cases h2 : a' = a
    · rw [if_pos h2]; simp
    · rw [if_neg h2]
      constructor
      · intro h; cases h
      · intro h3
        have := (h _ _).mpr h3
        rw [(h _ _).mpr hr] at this
        simp only [Option.some.injEq] at this
        exact absurd this.symm h2
  · rw [if_neg h1]
    by_cases h2 : a' = a
    · subst h2
      rw [if_pos rfl, h, hr]
      simp only [Option.some.injEq, reduceCtorEq, iff_false]
      exact fun h => h1 h.symm
    · rw [if_neg h2]; exact h _ _

theorem bij_insert {keys rev : Nat → Option Nat} (h : ∀ k a, keys k = some a ↔ rev a = some k) {k a : Nat} (hk : keys k = none)
    (hr : rev a = none) (k' a' : Nat) : upd keys k (some a) k' = some a' ↔ upd rev a (some k) a' = some k' := by
  rw [upd_apply, upd_apply]
  by_cases h1 : k' = k
  · subst h1
    rw [if_pos rfl]
    by_cases h2 : a' = a
    · subst h2; rw [if_pos rfl]; simp
    · rw [if_neg h2, ← h, hk]
      simp only [Option.some.injEq, reduceCtorEq, iff_false]
      exact fun h => h2 h.symm
  · rw [if_neg h1]
    by_cases h2 : a' = a
    · subst h2
      rw [if_pos rfl, h, hr]
      simp only [Option.some.injEq, reduceCtorEq, false_iff]
      exact fun h => h1 h.symm
    · rw [if_neg h2]; exact h _ _

theorem Inv.next {minV : Nat} {p : Option Entry} {s s' : State} {x : Step} (hi : Inv minV p s) (hv : View minV p s x s') :
    ∃ p', Inv minV p' s' := by
  cases hv with
  | same => exact ⟨p, hi⟩
  | other hx =>
    refine ⟨p, hi.nodup, hi.lo, hi.hi, hi.bij, hi.hasKey, hi.keyOf, hi.depOf, hi.uniq, hi.ing, hi.pend, hi.tx, ?_, ?_, ?_⟩
    · intro e he
      obtain ⟨h1, h2⟩ := hi.pok e he
      exact ⟨Nat.lt_succ_of_lt h1, h2⟩
    · intro t k a h
      obtain ⟨h1, h2⟩ := hi.logP t k a h
      exact ⟨Nat.lt_succ_of_lt h1, h2⟩
    · intro t ok h
      exact Nat.lt_succ_of_lt (hi.logA t ok h)
  | requested a k d hx h1 h2 h3 h4 =>
    have hp := hi.none_of_inactive h4
    subst hp
    have hra : s.rev a = none := by
      cases hr : s.rev a with
      | none => rfl
      | some k' =>
        rcases hi.keyOf a k' hr with h | ⟨e, h, _⟩
        · exact absurd h h1
        · cases h
    refine ⟨_, hi.record a .registration (upd s.keys k (some a)) (upd s.rev a (some k)) (upd s.deposits a (some d))
      (bij_insert hi.bij h2 hra) ?_ ?_ ?_ ?_⟩
    · intro v hv
      rw [upd_apply]; split
      · rfl
      · exact hi.hasKey v hv
    · intro v k' h
      rw [upd_apply] at h
      split at h
      · rename_i hv; exact Or.inr ⟨hv, rfl⟩
      · rcases hi.keyOf v k' h with h | ⟨e, h, _⟩
        · exact Or.inl h
        · cases h
    · intro v d' h
      rw [upd_apply] at h
      split at h
      · rename_i hv; exact ⟨hv, rfl⟩
      · obtain ⟨e, h, _⟩ := hi.depOf v d' h
        cases h
    · exact Or.inl ⟨rfl, h1, h3, by simp⟩
  | resigned a k hx h1 h2 h3 h4 =>
    have hp := hi.none_of_inactive h4
    subst hp
    refine ⟨_, hi.record a .resignation s.keys s.rev s.deposits hi.bij hi.hasKey ?_ ?_ (Or.inr ⟨rfl, h1, h3⟩)⟩
    · intro v k' h
      rcases hi.keyOf v k' h with h | ⟨e, h, _⟩
      · exact Or.inl h
      · cases h
    · intro v d' h
      obtain ⟨e, h, _⟩ := hi.depOf v d' h
      cases h
  | rotated a old new hx h1 h2 h3 =>
    have hr : s.rev a = some old := (hi.bij _ _).mp h3
    have hupd : upd s.rev a (some new) = upd (upd s.rev a none) a (some new) := by
      funext v; simp only [upd_apply]; split <;> rfl
    refine ⟨p, hi.nodup, hi.lo, hi.hi, ?_, ?_, ?_, hi.depOf, hi.uniq, hi.ing, hi.pend, hi.tx, ?_, hi.logP, hi.logA⟩
    · intro k' a'
      simp only [rotated]
      rw [hupd]
      refine bij_insert (bij_erase hi.bij hr) ?_ (by simp) k' a'
      rw [upd_apply]; split
      · rfl
      · exact h1
    · intro v hv
      simp only [rotated, upd_apply]; split
      · rfl
      · exact hi.hasKey v hv
    · intro v k' h
      simp only [rotated, upd_apply] at h
      split at h
      · rename_i hv; subst hv; exact hi.keyOf _ _ hr
      · exact hi.keyOf _ _ h
    · intro e he
      obtain ⟨q1, q2, q3, q4⟩ := hi.pok e he
      refine ⟨q1, q2, q3, ?_⟩
      rcases q4 with ⟨r1, r2, r3, r4⟩ | q4
      · refine Or.inl ⟨r1, r2, r3, ?_⟩
        simp only [rotated, upd_apply]; split
        · rfl
        · exact r4
      · exact Or.inr q4
  | failReg e k hx hp hk h =>
    subst hp
    obtain ⟨q1, q2, q3, q4⟩ := hi.pok e rfl
    have hv : e.account ∉ s.validators := by
      rcases q4 with q4 | q4
      · exact q4.2.1
      · rw [hk] at q4; cases q4.1
    refine ⟨none, hi.nodup, hi.lo, hi.hi, bij_erase hi.bij h, ?_, ?_, ?_, nodup_dropAction _ _ hi.uniq, ?_, hi.drop_pend,
      fun t => upd_tx_none hi t, ?_, hi.logP' _, hi.logA' _⟩
    · intro v hv'
      simp only [failReg, upd_apply]; split
      · rename_i h0; subst h0; exact absurd hv' hv
      · exact hi.hasKey v hv'
    · intro v k' h'
      simp only [failReg, upd_apply] at h'
      split at h'
      · cases h'
      · rename_i h0
        rcases hi.keyOf _ _ h' with h1 | ⟨e', h1, h2, _⟩
        · exact Or.inl h1
        · simp only [Option.some.injEq] at h1; subst h1; exact absurd h2.symm h0
    · intro v d' h'
      simp only [failReg, upd_apply] at h'
      split at h'
      · cases h'
      · rename_i h0
        obtain ⟨e', h1, h2, _⟩ := hi.depOf _ _ h'
        simp only [Option.some.injEq] at h1; subst h1; exact absurd h2.symm h0
    · intro e' he'
      exact hi.ing e' (mem_dropAction.mp he').1
    · intro e' he'; cases he'
  | failRes e hx hp hk =>
    subst hp
    refine ⟨none, hi.nodup, hi.lo, hi.hi, hi.bij, hi.hasKey, ?_, ?_, nodup_dropAction _ _ hi.uniq, ?_, hi.drop_pend,
      fun t => upd_tx_none hi t, ?_, hi.logP' _, hi.logA' _⟩
    · intro v k' h'
      rcases hi.keyOf _ _ h' with h1 | ⟨e', h1, _, h2⟩
      · exact Or.inl h1
      · simp only [Option.some.injEq] at h1; subst h1; rw [hk] at h2; cases h2
    · intro v d' h'
      obtain ⟨e', h1, _, h2⟩ := hi.depOf _ _ h'
      simp only [Option.some.injEq] at h1; subst h1; rw [hk] at h2; cases h2
    · intro e' he'
      exact hi.ing e' (mem_dropAction.mp he').1
    · intro e' he'; cases he'
  | joined e hx hp hk =>
    subst hp
    obtain ⟨q1, q2, q3, q4⟩ := hi.pok e rfl
    have q : e.account ∉ s.validators ∧ s.validators.length < maxValidators ∧ (s.rev e.account).isSome := by
      rcases q4 with q4 | q4
      · exact q4.2
      · rw [hk] at q4; cases q4.1
    have hlo := hi.lo
    refine ⟨none, ?_, ?_, ?_, hi.bij, ?_, ?_, ?_, ?_, ?_, ?_,
      fun t => upd_tx_none hi t, ?_, hi.logP' _, hi.logA' _⟩
    · simp only [joined]
      rw [List.nodup_append]
      refine ⟨hi.nodup, by simp, ?_⟩
      intro v hv w hw h
      simp only [List.mem_singleton] at hw
      subst hw h
      exact q.1 hv
    · simp only [joined, List.length_append, List.length_singleton]; omega
    · simp only [joined, List.length_append, List.length_singleton]; omega
    · intro v hv
      simp only [joined, List.mem_append, List.mem_singleton] at hv ⊢
      rcases hv with hv | rfl
      · exact hi.hasKey v hv
      · exact q.2.2
    · intro v k' h'
      left
      simp only [joined, List.mem_append, List.mem_singleton]
      rcases hi.keyOf _ _ h' with h1 | ⟨e', h1, h2, _⟩
      · exact Or.inl h1
      · simp only [Option.some.injEq] at h1; subst h1; exact Or.inr h2.symm
    · intro v d' h'
      simp only [joined, upd_apply] at h'
      split at h'
      · cases h'
      · rename_i h0
        obtain ⟨e', h1, h2, _⟩ := hi.depOf _ _ h'
        simp only [Option.some.injEq] at h1; subst h1; exact absurd h2.symm h0
    · apply nodup_mapAction _ _ hi.uniq
      intro e'; split <;> rfl
    · intro e' he'
      simp only [joined, setAction, List.mem_map] at he'
      obtain ⟨e0, h0, rfl⟩ := he'
      split <;> exact hi.ing e0 h0
    · apply hi.map_pend
      intro e'; split <;> rfl
    · intro e' he'; cases he'
  | left e k hx hp hk h =>
    subst hp
    obtain ⟨q1, q2, q3, q4⟩ := hi.pok e rfl
    have q : e.account ∈ s.validators ∧ minV < s.validators.length := by
      rcases q4 with q4 | q4
      · rw [hk] at q4; cases q4.1
      · exact q4.2
    have herase : s.validators.filter (fun v => v != e.account) = s.validators.erase e.account :=
      (hi.nodup.erase_eq_filter _).symm
    refine ⟨none, ?_, ?_, ?_, bij_erase hi.bij h, ?_, ?_, ?_, ?_, ?_, ?_,
      fun t => upd_tx_none hi t, ?_, hi.logP' _, hi.logA' _⟩
    · exact hi.nodup.filter _
    · simp only [left]
      rw [herase, List.length_erase_of_mem q.1]
      omega
    · exact Nat.le_trans (List.length_filter_le _ _) hi.hi
    · intro v hv
      simp only [left, List.mem_filter, bne_iff_ne] at hv
      simp only [left, upd_apply]
      rw [if_neg hv.2]
      exact hi.hasKey v hv.1
    · intro v k' h'
      simp only [left, upd_apply] at h'
      split at h'
      · cases h'
      · rename_i h0
        rcases hi.keyOf _ _ h' with h1 | ⟨e', h1, h2, _⟩
        · left; simp only [left, List.mem_filter, bne_iff_ne]; exact ⟨h1, h0⟩
        · simp only [Option.some.injEq] at h1; subst h1; exact absurd h2.symm h0
    · intro v d' h'
      obtain ⟨e', h1, _, h2⟩ := hi.depOf _ _ h'
      simp only [Option.some.injEq] at h1; subst h1; rw [hk] at h2; cases h2
    · apply nodup_mapAction _ _ hi.uniq
      intro e'; split <;> rfl
    · intro e' he'
      simp only [left, List.mem_map] at he'
      obtain ⟨e0, h0, rfl⟩ := he'
      split <;> exact hi.ing e0 h0
    · apply hi.map_pend
      intro e'; split <;> rfl
    · intro e' he'; cases he'
  | session s' hx h =>
    have he := h.eq
    have hing := h.ing
    have huniq := h.uniq
    have haw := h.aw
    generalize s'.actions = l at he hing huniq haw
    subst he
    refine ⟨p, hi.nodup, hi.lo, hi.hi, hi.bij, hi.hasKey, hi.keyOf, hi.depOf, huniq, hing, ?_, hi.tx, hi.pok, hi.logP, hi.logA⟩
    intro e
    rw [← hi.pend]
    constructor
    · rintro ⟨h1, h2⟩; exact ⟨(haw e h2).mp h1, h2⟩
    · rintro ⟨h1, h2⟩; exact ⟨(haw e h2).mpr h1, h2⟩

theorem run_snoc (minV : Nat) (s : State) (xs : List Step) (x : Step) :
    run minV s (xs ++ [x]) = step minV (run minV s xs) x := by
  simp [run, List.foldl_append]

/-- A usable genesis: distinct accounts and keys, and between the minimum and the maximum number of validators. -/
structure GoodGenesis (minV : Nat) (vs : List (Nat × Nat)) : Prop where
  accounts : (vs.map Prod.fst).Nodup
  keys : (vs.map Prod.snd).Nodup
  lo : minV ≤ vs.length
  hi : vs.length ≤ 256

theorem genesis_keys {vs : List (Nat × Nat)} (h : (vs.map Prod.snd).Nodup) (k a : Nat) :
    (genesis vs).keys k = some a ↔ (a, k) ∈ vs := by
  simp only [genesis, Option.map_eq_some_iff]
  constructor
  · rintro ⟨⟨a', k'⟩, h1, rfl⟩
    have h2 := List.find?_some h1
    simp at h2; subst h2
    exact List.mem_of_find?_eq_some h1
  · intro hm
    cases hf : vs.find? (fun v => v.2 == k) with
    | none => have := List.find?_eq_none.mp hf _ hm; simp at this
    | some q =>
      have h2 := List.find?_some hf
      simp at h2
      have := List.inj_on_of_nodup_map h (List.mem_of_find?_eq_some hf) hm h2
      exact ⟨q, rfl, by rw [this]⟩

theorem genesis_rev {vs : List (Nat × Nat)} (h : (vs.map Prod.fst).Nodup) (k a : Nat) :
    (genesis vs).rev a = some k ↔ (a, k) ∈ vs := by
  simp only [genesis, Option.map_eq_some_iff]
  constructor
  · rintro ⟨⟨a', k'⟩, h1, rfl⟩
    have h2 := List.find?_some h1
    simp at h2; subst h2
    exact List.mem_of_find?_eq_some h1
  · intro hm
    cases hf : vs.find? (fun v => v.1 == a) with
    | none => have := List.find?_eq_none.mp hf _ hm; simp at this
    | some q =>
      have h2 := List.find?_some hf
      simp at h2
      have := List.inj_on_of_nodup_map h (List.mem_of_find?_eq_some hf) hm h2
      exact ⟨q, rfl, by rw [this]⟩

theorem genesis_inv {minV : Nat} {vs : List (Nat × Nat)} (h : GoodGenesis minV vs) : Inv minV none (genesis vs) := by
  refine ⟨h.accounts, ?_, ?_, ?_, ?_, ?_, ?_, ?_, ?_, ?_, ?_, ?_, ?_, ?_⟩
  · simpa [genesis] using h.lo
  · simpa [genesis, maxValidators] using h.hi
  · intro k a; rw [genesis_keys h.keys, genesis_rev h.accounts]
  · intro a ha
    simp only [genesis, List.mem_map] at ha
    obtain ⟨⟨a', k⟩, hm, rfl⟩ := ha
    rw [(genesis_rev h.accounts k a').mpr hm]; rfl
  · intro a k hk
    left
    exact List.mem_map.mpr ⟨(a, k), (genesis_rev h.accounts k a).mp hk, rfl⟩
  · intro a d h'; cases h'
  · simp [genesis]
  · intro e he; simp [genesis] at he
  · intro e; simp [genesis]
  · intro t; rfl
  · intro e he; cases he
  · intro t k a h'; simp [genesis] at h'
  · intro t ok h'; simp [genesis] at h'

theorem run_inv {minV : Nat} {vs : List (Nat × Nat)} (h : GoodGenesis minV vs) (xs : List Step) :
    ∃ p, Inv minV p (run minV (genesis vs) xs) := by
  induction xs using List.reverseRecOn with
  | nil => exact ⟨none, genesis_inv h⟩
  | append_singleton xs x ih =>
    obtain ⟨p, ih⟩ := ih
    rw [run_snoc]
    exact ih.next (step_view ih x)

end Verif.Validators
