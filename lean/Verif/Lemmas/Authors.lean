import Verif.Model.Authors
import Mathlib.Data.List.Induction
import Mathlib.Data.List.Nodup

namespace Verif.Authors

/-- The two keys of an action entry. -/
def ekey (e : Entry) : Nat × Nat := (e.account, e.ingress)

theorem eq_of_ekey {l : List Entry} (h : (l.map ekey).Nodup) {e e' : Entry} (h1 : e ∈ l) (h2 : e' ∈ l)
    (hk : ekey e = ekey e') : e = e' := List.inj_on_of_nodup_map h h1 h2 hk

theorem mem_dropAction {l : List Entry} {a i : Nat} {e : Entry} : e ∈ dropAction l a i ↔ e ∈ l ∧ ekey e ≠ (a, i) := by
  simp only [dropAction, ekey, List.mem_filter, Bool.not_eq_true', Bool.and_eq_false_iff, beq_eq_false_iff_ne, ne_eq,
    Prod.mk.injEq, not_and]
  constructor
  · rintro ⟨h, h1 | h1⟩
    · exact ⟨h, fun h2 => absurd h2 h1⟩
    · exact ⟨h, fun _ => h1⟩
  · rintro ⟨h, h1⟩
    refine ⟨h, ?_⟩
    by_cases h2 : e.account = a
    · exact Or.inr (h1 h2)
    · exact Or.inl h2

theorem nodup_dropAction {l : List Entry} (a i : Nat) (h : (l.map ekey).Nodup) : ((dropAction l a i).map ekey).Nodup :=
  h.sublist (List.Sublist.map _ List.filter_sublist)

theorem nodup_mapAction {l : List Entry} (f : Entry → Entry) (hf : ∀ e, ekey (f e) = ekey e) (h : (l.map ekey).Nodup) :
    ((l.map f).map ekey).Nodup := by
  have : (l.map f).map ekey = l.map ekey := by
    rw [List.map_map]; apply List.map_congr_left; intro e _; exact hf e
  rw [this]; exact h

theorem getAction_some {s : State} {a i : Nat} {e : Entry} (h : getAction s a i = some e) : e ∈ s.actions ∧ ekey e = (a, i) := by
  unfold getAction at h
  have h1 := List.mem_of_find?_eq_some h
  have h2 := List.find?_some h
  simp at h2
  exact ⟨h1, by simp [ekey, h2]⟩

theorem getAction_of_mem {s : State} (hn : (s.actions.map ekey).Nodup) {e : Entry} (h : e ∈ s.actions) :
    getAction s e.account e.ingress = some e := by
  cases hg : getAction s e.account e.ingress with
  | none =>
    unfold getAction at hg
    have := List.find?_eq_none.mp hg e h
    simp at this
  | some e' =>
    have := getAction_some hg
    rw [eq_of_ekey hn this.1 h (by rw [this.2]; rfl)]

/-- The invariant; `p` is the change in flight. -/
structure Inv (minA : Nat) (p : Option Entry) (s : State) : Prop where
  nodup : s.authors.Nodup
  lo : minA ≤ s.authors.length
  hi : s.authors.length ≤ maxAuthors
  uniq : (s.actions.map ekey).Nodup
  ing : ∀ e ∈ s.actions, e.ingress ≤ s.ingress
  pend : ∀ e, (e ∈ s.actions ∧ isActive e.status = true) ↔ p = some e
  tx : ∀ t, s.txMap t = p.bind fun e => if t = e.tx then some (e.account, e.ingress) else none
  pok : ∀ e, p = some e → e.tx < s.nextTx ∧ (∃ k, .published e.tx e.kind e.account k ∈ s.log) ∧ (∀ ok, .answered e.tx ok ∉ s.log) ∧
    (e.kind = .registration ∧ e.account ∉ s.authors ∧ s.authors.length < maxAuthors ∨
      e.kind = .resignation ∧ e.account ∈ s.authors ∧ minA < s.authors.length)
  logP : ∀ t k a x, .published t k a x ∈ s.log → t < s.nextTx ∧
    ((∃ ok, .answered t ok ∈ s.log) ∨ ∃ e, p = some e ∧ e.tx = t ∧ e.kind = k ∧ e.account = a)
  logA : ∀ t ok, .answered t ok ∈ s.log → t < s.nextTx

/-- An update of an action entry that keeps what it is about and whether it is open. -/
def Gentle (f : Entry → Entry) : Prop :=
  ∀ e, (f e).account = e.account ∧ (f e).ingress = e.ingress ∧ (f e).tx = e.tx ∧ (f e).kind = e.kind ∧ isActive (f e).status = isActive e.status

/-- The state when the bridge's answer for transaction `t` has been noted. -/
def noted (s : State) (t : Nat) (ok : Bool) : State := { s with txMap := upd s.txMap t none, log := s.log ++ [.answered t ok] }

/-- The state after a registration request. -/
def requested (s : State) (a k pos : Nat) : State :=
  recordAction { s with keys := putKey s.keys pos k a, rev := upd s.rev a (some k) } a k .registration

/-- What one step can do. -/
inductive View (minA : Nat) (p : Option Entry) (s : State) (x : Step) : State → Prop
  | same (hx : ∀ act dis vis, x ≠ .session act dis vis) : View minA p s x s
  | other (hx : x = .otherPublish) : View minA p s x { s with nextTx := s.nextTx + 1 }
  | requested (a k pos : Nat) (hx : ∃ sk ko bo, x = .add a k pos sk ko bo) (h1 : a ∉ s.authors) (h2 : keyOwner s.keys k = none)
      (h3 : s.authors.length < maxAuthors) (h4 : hasActive s = false) : View minA p s x (requested s a k pos)
  | resigned (a k : Nat) (hx : ∃ ko bo, x = .remove a ko bo) (h1 : a ∈ s.authors) (h2 : s.rev a = some k)
      (h3 : minA < s.authors.length) (h4 : hasActive s = false) : View minA p s x (recordAction s a k .resignation)
  | rotated (a old new pos : Nat) (hx : x = .rotate a old new pos) (h1 : keyOwner s.keys new = none) (h2 : old ≠ new)
      (h3 : keyOwner s.keys old = some a) : View minA p s x { s with keys := putKey (dropKey s.keys old) pos new a }
  | failReg (e : Entry) (hx : (∃ st, x = .bridgeResult e.tx true false st) ∨ x = .bridgeDropped e.tx true)
      (hp : p = some e) (hk : e.kind = .registration) : View minA p s x (cleanupRegistration (noted s e.tx false) e.account e.ingress)
  | failRes (e : Entry) (hx : (∃ st, x = .bridgeResult e.tx true false st) ∨ x = .bridgeDropped e.tx true)
      (hp : p = some e) (hk : e.kind = .resignation) :
      View minA p s x { noted s e.tx false with actions := dropAction s.actions e.account e.ingress }
  | joined (e : Entry) (hx : x = .bridgeResult e.tx true true true) (hp : p = some e) (hk : e.kind = .registration) :
      View minA p s x { noted s e.tx true with
        authors := s.authors ++ [e.account], actions := setAction s.actions e.account e.ingress .actioned .activation }
  | left (e : Entry) (hx : ∃ st, x = .bridgeResult e.tx true true st) (hp : p = some e) (hk : e.kind = .resignation) :
      View minA p s x (completeDeregistration (noted s e.tx true) e.account e.ingress).1
  | session (act dis : List Nat) (vis : List (Nat × Nat)) (f : Entry → Entry) (ks : List (Nat × Nat)) (hx : x = .session act dis vis) (hf : Gentle f)
      (hks : ks = s.keys ∨ ∃ e ∈ s.actions, isActive e.status = true ∧ e.kind = .resignation ∧ ¬ (e.account ∈ act ∨ e.account ∈ dis)) :
      View minA p s x { s with actions := s.actions.map f, keys := ks }

theorem addAuthor_view (minA : Nat) (p : Option Entry) (s : State) (a k pos : Nat) (sk ko bo : Bool) :
    View minA p s (.add a k pos sk ko bo) (commit s (addAuthor s a k pos sk ko bo)) := by
  have same : View minA p s (.add a k pos sk ko bo) s := .same (by simp)
  unfold addAuthor
  by_cases h0 : s.authors = []
  · rw [if_pos h0]; exact same
  rw [if_neg h0]
  by_cases h1 : a ∈ s.authors
  · rw [if_pos h1]; exact same
  rw [if_neg h1]
  by_cases h2 : (keyOwner s.keys k).isSome = true
  · rw [if_pos h2]; exact same
  rw [if_neg h2]
  by_cases h3 : maxAuthors ≤ s.authors.length
  · rw [if_pos h3]; exact same
  rw [if_neg h3]
  by_cases h4 : (!sk) = true
  · rw [if_pos h4]; exact same
  rw [if_neg h4]
  by_cases h5 : hasActive s = true
  · rw [if_pos h5]; exact same
  rw [if_neg h5]
  by_cases h7 : (!ko) = true
  · rw [if_pos h7]; exact same
  rw [if_neg h7]
  by_cases h8 : (!bo) = true
  · rw [if_pos h8]; exact same
  rw [if_neg h8]
  exact .requested a k pos ⟨_, _, _, rfl⟩ h1 (by simpa using h2) (by omega) (by simpa using h5)

theorem removeAuthor_view (minA : Nat) (p : Option Entry) (s : State) (a : Nat) (ko bo : Bool) :
    View minA p s (.remove a ko bo) (commit s (removeAuthor minA s a ko bo)) := by
  have same : View minA p s (.remove a ko bo) s := .same (by simp)
  unfold removeAuthor
  by_cases h0 : s.authors.length ≤ minA
  · rw [if_pos h0]; exact same
  rw [if_neg h0]
  by_cases h1 : a ∉ s.authors
  · rw [if_pos h1]; exact same
  rw [if_neg h1]
  by_cases h5 : hasActive s = true
  · rw [if_pos h5]; exact same
  rw [if_neg h5]
  cases hr : s.rev a with
  | none => exact same
  | some k =>
    dsimp only
    by_cases h7 : (!ko) = true
    · rw [if_pos h7]; exact same
    rw [if_neg h7]
    by_cases h8 : (!bo) = true
    · rw [if_pos h8]; exact same
    rw [if_neg h8]
    exact .resigned a k ⟨_, _, rfl⟩ (by simpa using h1) hr (by omega) (by simpa using h5)

theorem rotateKey_view (minA : Nat) (p : Option Entry) (s : State) (a old new pos : Nat) :
    View minA p s (.rotate a old new pos) (commit s (rotateKey s a old new pos)) := by
  have same : View minA p s (.rotate a old new pos) s := .same (by simp)
  unfold rotateKey
  by_cases h0 : (keyOwner s.keys new).isSome = true
  · rw [if_pos h0]; exact same
  rw [if_neg h0]
  by_cases h1 : old = new
  · rw [if_pos h1]; exact same
  rw [if_neg h1]
  cases hr : keyOwner s.keys old with
  | none => exact same
  | some b =>
    dsimp only
    by_cases h2 : b ≠ a
    · rw [if_pos h2]; exact same
    rw [if_neg h2]
    have : b = a := by simpa using h2
    subst this
    exact .rotated b old new pos rfl (by simpa using h0) h1 hr

theorem Inv.pending {minA : Nat} {p : Option Entry} {s : State} (hi : Inv minA p s) {t a i : Nat} (h : s.txMap t = some (a, i)) :
    ∃ e, p = some e ∧ e.tx = t ∧ e.account = a ∧ e.ingress = i ∧ getAction s a i = some e := by
  rw [hi.tx] at h
  cases p with
  | none => cases h
  | some e =>
    simp only [Option.bind_some] at h
    split at h
    · rename_i ht
      simp only [Option.some.injEq, Prod.mk.injEq] at h
      obtain ⟨rfl, rfl⟩ := h
      exact ⟨e, rfl, ht.symm, rfl, rfl, getAction_of_mem hi.uniq ((hi.pend e).mpr rfl).1⟩
    · cases h

/-- The outcome of `process_result`. -/
theorem processResult_view {minA : Nat} {p : Option Entry} {s : State} (hi : Inv minA p s) (t : Nat) (mine ok st : Bool)
    (x : Step) (hns : ∀ act dis vis, x ≠ .session act dis vis) (hx : mine = true → ok = true → x = .bridgeResult t true true st)
    (hx' : mine = true → ok = false → (∃ st, x = .bridgeResult t true false st) ∨ x = .bridgeDropped t true) :
    (View minA p s x (processResult s t mine ok st).1 ∧ (processResult s t mine ok st).2 = none) ∨
      ok = true ∧ (processResult s t mine ok st).2 ≠ none := by
  unfold processResult
  cases mine with
  | false => exact Or.inl ⟨.same hns, rfl⟩
  | true =>
  simp only [Bool.not_true, Bool.false_eq_true, if_false]
  cases ht : s.txMap t with
  | none => exact Or.inl ⟨.same hns, rfl⟩
  | some q =>
  obtain ⟨a, i⟩ := q
  obtain ⟨e, hp, h1, h2, h3, h4⟩ := hi.pending ht
  have h4' : getAction { s with txMap := upd s.txMap t none } a i = some e := h4
  dsimp only
  rw [h4']
  dsimp only
  have hk := (hi.pok e hp).2.2.2
  subst h1 h2 h3
  cases ok with
  | false =>
    simp only [Bool.not_false, if_true]
    rcases hk with ⟨hk, hk2⟩ | ⟨hk, hk2⟩
    · rw [if_pos hk]
      exact Or.inl ⟨.failReg e (hx' rfl rfl) hp hk, rfl⟩
    · have : e.kind ≠ .registration := by rw [hk]; decide
      rw [if_neg this]
      exact Or.inl ⟨.failRes e (hx' rfl rfl) hp hk, rfl⟩
  | true =>
    simp only [Bool.not_true, Bool.false_eq_true, if_false]
    rcases hk with ⟨hk, hk2⟩ | ⟨hk, hk2⟩
    · rw [if_pos hk]
      unfold completeRegistration
      have : ¬ maxAuthors ≤ s.authors.length := by omega
      dsimp only
      rw [if_neg this]
      cases st with
      | false => right; exact ⟨trivial, by simp⟩
      | true =>
        left
        exact ⟨.joined e (hx rfl rfl) hp hk, rfl⟩
    · have : e.kind ≠ .registration := by rw [hk]; decide
      rw [if_neg this, if_pos hk]
      left
      exact ⟨.left e ⟨st, hx rfl rfl⟩ hp hk, rfl⟩

theorem gentle_id : Gentle id := fun _ => ⟨rfl, rfl, rfl, rfl, rfl⟩

theorem gentle_comp {f g : Entry → Entry} (hf : Gentle f) (hg : Gentle g) : Gentle (g ∘ f) := by
  intro e
  obtain ⟨a1, a2, a3, a4, a5⟩ := hf e
  obtain ⟨b1, b2, b3, b4, b5⟩ := hg (f e)
  exact ⟨b1.trans a1, b2.trans a2, b3.trans a3, b4.trans a4, b5.trans a5⟩

/-- Confirming the awaiting entry `e` of a list with distinct keys is a gentle update. -/
theorem confirm_gentle {l : List Entry} (h : (l.map ekey).Nodup) {e : Entry} (he : e ∈ l) (hs : e.status = .awaiting) :
    ∃ f, Gentle f ∧ setAction l e.account e.ingress .confirmed e.kind = l.map f := by
  refine ⟨fun x => if x = e then { x with status := .confirmed } else x, ?_, ?_⟩
  · intro x
    dsimp only
    split
    · rename_i hx; subst hx; exact ⟨rfl, rfl, rfl, rfl, by simp [hs, isActive]⟩
    · exact ⟨rfl, rfl, rfl, rfl, rfl⟩
  · unfold setAction
    apply List.map_congr_left
    intro x hx
    by_cases hc : (x.account == e.account && x.ingress == e.ingress) = true
    · have : x = e := eq_of_ekey h hx he (by simp at hc; simp [ekey, hc])
      subst this
      rw [if_pos hc, if_pos rfl]
    · rw [if_neg hc, if_neg]
      rintro rfl
      simp at hc

theorem removeKey_eq (s : State) (a : Nat) : ∃ ks, removeKey s a = { s with keys := ks } := by
  unfold removeKey
  cases s.keys.find? fun x => x.2 == a with
  | none => exact ⟨s.keys, rfl⟩
  | some x => exact ⟨_, rfl⟩

theorem newSession_view (act dis : List Nat) : ∀ (vis : List (Nat × Nat)) (s : State), (s.actions.map ekey).Nodup →
    ∃ f ks, Gentle f ∧ newSession act dis vis s = { s with actions := s.actions.map f, keys := ks } ∧
      (ks = s.keys ∨ ∃ e ∈ s.actions, isActive e.status = true ∧ e.kind = .resignation ∧ ¬ (e.account ∈ act ∨ e.account ∈ dis))
  | [], s, _ => ⟨id, s.keys, gentle_id, by simp [newSession], .inl rfl⟩
  | (a, i) :: rest, s, h => by
    unfold newSession
    cases hg : getAction s a i with
    | none => exact newSession_view act dis rest s h
    | some e =>
      obtain ⟨hm, hk⟩ := getAction_some hg
      simp only [ekey, Prod.mk.injEq] at hk
      obtain ⟨rfl, rfl⟩ := hk
      dsimp only
      by_cases c1 : e.status = .awaiting ∧ e.kind = .resignation ∧ ¬ (e.account ∈ act ∨ e.account ∈ dis)
      · rw [if_pos c1]
        obtain ⟨f, hf, hfe⟩ := confirm_gentle h hm c1.1
        obtain ⟨ks, hks⟩ := removeKey_eq { s with actions := setAction s.actions e.account e.ingress .confirmed e.kind } e.account
        rw [hks, hfe]
        obtain ⟨g, ks', hg', heq, _⟩ := newSession_view act dis rest { s with actions := s.actions.map f, keys := ks }
          (nodup_mapAction f (fun x => by simp [ekey, (hf x).1, (hf x).2.1]) h)
        refine ⟨g ∘ f, ks', gentle_comp hf hg', by rw [heq]; simp [List.map_map], .inr ⟨e, hm, by simp [c1.1, isActive], c1.2.1, c1.2.2⟩⟩
      · rw [if_neg c1]
        by_cases c2 : e.status = .awaiting ∧ e.kind = .activation
        · rw [if_pos c2]
          obtain ⟨f, hf, hfe⟩ := confirm_gentle h hm c2.1
          rw [hfe]
          obtain ⟨g, ks', hg', heq, hk'⟩ := newSession_view act dis rest { s with actions := s.actions.map f }
            (nodup_mapAction f (fun x => by simp [ekey, (hf x).1, (hf x).2.1]) h)
          refine ⟨g ∘ f, ks', gentle_comp hf hg', by rw [heq]; simp [List.map_map], ?_⟩
          rcases hk' with h1 | ⟨x, hx, h1, h2, h3⟩
          · exact .inl h1
          · obtain ⟨y, hy, rfl⟩ := List.mem_map.1 hx
            obtain ⟨q1, _, _, q4, q5⟩ := hf y
            exact .inr ⟨y, hy, by rw [← q5]; exact h1, by rw [← q4]; exact h2, by rw [← q1]; exact h3⟩
        · rw [if_neg c2]
          exact newSession_view act dis rest s h

theorem step_view {minA : Nat} {p : Option Entry} {s : State} (hi : Inv minA p s) (x : Step) :
    View minA p s x (step minA s x) := by
  cases x with
  | add a k pos sk ko bo => exact addAuthor_view ..
  | remove a ko bo => exact removeAuthor_view ..
  | rotate a o n pos => exact rotateKey_view ..
  | otherPublish => exact .other rfl
  | bridgeResult t m ok st =>
    have h := processResult_view hi t m ok st (.bridgeResult t m ok st) (by simp) (by rintro rfl rfl; rfl)
      (by rintro rfl rfl; exact Or.inl ⟨_, rfl⟩)
    simp only [step]
    rcases hr : processResult s t m ok st with ⟨s', r⟩
    rw [hr] at h
    rcases h with ⟨h1, h2⟩ | ⟨h1, h2⟩
    · dsimp only at h1 h2; subst h2; exact h1
    · dsimp only at h2
      cases r with
      | none => exact absurd rfl h2
      | some r => exact .same (by simp)
  | bridgeDropped t m =>
    have h := processResult_view hi t m false false (.bridgeDropped t m) (by simp) (by rintro rfl h; cases h)
      (by rintro rfl _; exact Or.inr rfl)
    rcases h with ⟨h1, h2⟩ | ⟨h1, h2⟩
    · exact h1
    · cases h1
  | session act dis vis =>
    obtain ⟨f, ks, hf, he, hk⟩ := newSession_view act dis vis s hi.uniq
    simp only [step]
    rw [he]
    exact .session act dis vis f ks rfl hf hk

theorem Inv.none_of_inactive {minA : Nat} {p : Option Entry} {s : State} (hi : Inv minA p s) (h : hasActive s = false) : p = none := by
  cases p with
  | none => rfl
  | some e =>
    obtain ⟨h1, h2⟩ := (hi.pend e).mpr rfl
    unfold hasActive at h
    rw [List.any_eq_false] at h
    exact absurd h2 (h e h1)

theorem Inv.record {minA : Nat} {s : State} (hi : Inv minA none s) (a k : Nat) (kd : Kind) (ks : List (Nat × Nat)) (rev : Nat → Option Nat)
    (hok : kd = .registration ∧ a ∉ s.authors ∧ s.authors.length < maxAuthors ∨ kd = .resignation ∧ a ∈ s.authors ∧ minA < s.authors.length) :
    Inv minA (some ⟨a, s.ingress + 1, .awaiting, s.nextTx, kd⟩) (recordAction { s with keys := ks, rev := rev } a k kd) := by
  have hno : ∀ e ∈ s.actions, isActive e.status ≠ true := by
    intro e he h
    have := (hi.pend e).mp ⟨he, h⟩
    cases this
  refine ⟨hi.nodup, hi.lo, hi.hi, ?_, ?_, ?_, ?_, ?_, ?_, ?_⟩
  · simp only [recordAction, List.map_cons, List.nodup_cons]
    refine ⟨?_, nodup_dropAction _ _ hi.uniq⟩
    simp only [List.mem_map, not_exists, not_and]
    intro e he h
    exact (mem_dropAction.mp he).2 h
  · intro e he
    simp only [recordAction, List.mem_cons] at he
    simp only [recordAction]
    rcases he with rfl | he
    · exact Nat.le_refl _
    · have := hi.ing e (mem_dropAction.mp he).1
      omega
  · intro e
    simp only [recordAction, List.mem_cons, Option.some.injEq]
    constructor
    · rintro ⟨rfl | he, h⟩
      · rfl
      · exact absurd h (hno e (mem_dropAction.mp he).1)
    · rintro rfl; exact ⟨Or.inl rfl, rfl⟩
  · intro t
    simp only [recordAction, Option.bind_some, upd_apply]
    split
    · rfl
    · rw [hi.tx]; rfl
  · intro e he
    simp only [Option.some.injEq] at he
    subst he
    refine ⟨Nat.lt_succ_self _, ⟨k, by simp [recordAction]⟩, ?_, hok⟩
    intro ok hmem
    simp only [recordAction, List.mem_append, List.mem_singleton, reduceCtorEq, or_false] at hmem
    exact absurd (hi.logA _ _ hmem) (Nat.lt_irrefl _)
  · intro t k v y h
    simp only [recordAction, List.mem_append, List.mem_singleton, Obs.published.injEq] at h
    rcases h with h | ⟨rfl, rfl, rfl, rfl⟩
    · obtain ⟨h1, h2⟩ := hi.logP _ _ _ _ h
      refine ⟨Nat.lt_succ_of_lt h1, ?_⟩
      rcases h2 with ⟨ok, h2⟩ | ⟨e, h2, _⟩
      · exact Or.inl ⟨ok, by simp [recordAction, h2]⟩
      · cases h2
    · exact ⟨Nat.lt_succ_self _, Or.inr ⟨_, rfl, rfl, rfl, rfl⟩⟩
  · intro t ok h
    simp only [recordAction, List.mem_append, List.mem_singleton, reduceCtorEq, or_false] at h
    exact Nat.lt_succ_of_lt (hi.logA _ _ h)

/-- A state in which the change in flight has been answered. -/
theorem Inv.answer {minA : Nat} {e : Entry} {s s' : State} (hi : Inv minA (some e) s) (ok : Bool)
    (h1 : s'.authors.Nodup) (h2 : minA ≤ s'.authors.length) (h3 : s'.authors.length ≤ maxAuthors)
    (h4 : (s'.actions.map ekey).Nodup) (h5 : ∀ x ∈ s'.actions, x.ingress ≤ s.ingress) (h6 : ∀ x ∈ s'.actions, isActive x.status ≠ true)
    (h7 : s'.txMap = upd s.txMap e.tx none) (h8 : s'.log = s.log ++ [.answered e.tx ok]) (h9 : s'.nextTx = s.nextTx) (h10 : s'.ingress = s.ingress) :
    Inv minA none s' := by
  refine ⟨h1, h2, h3, h4, by rw [h10]; exact h5, ?_, ?_, by simp, ?_, ?_⟩
  · intro x
    constructor
    · rintro ⟨a, b⟩; exact absurd b (h6 x a)
    · intro h; cases h
  · intro t
    rw [h7, upd_apply]
    split
    · rfl
    · rename_i h
      rw [hi.tx]
      simp [h]
  · intro t k a y h
    rw [h8] at h ⊢
    rw [h9]
    simp only [List.mem_append, List.mem_singleton, reduceCtorEq, or_false] at h
    obtain ⟨q1, q2⟩ := hi.logP _ _ _ _ h
    refine ⟨q1, Or.inl ?_⟩
    rcases q2 with ⟨ok', q2⟩ | ⟨e', q2, q3, _⟩
    · exact ⟨ok', by simp [q2]⟩
    · simp only [Option.some.injEq] at q2
      subst q2
      exact ⟨ok, by simp [q3]⟩
  · intro t ok' h
    rw [h8] at h
    rw [h9]
    simp only [List.mem_append, List.mem_singleton, Obs.answered.injEq] at h
    rcases h with h | ⟨rfl, _⟩
    · exact hi.logA _ _ h
    · exact (hi.pok e rfl).1

/-- Dropping the entry in flight leaves no open entry. -/
theorem Inv.drop_pend {minA : Nat} {e : Entry} {s : State} (hi : Inv minA (some e) s) (x : Entry)
    (hx : x ∈ dropAction s.actions e.account e.ingress) : isActive x.status ≠ true := by
  intro h2
  obtain ⟨h1, h3⟩ := mem_dropAction.mp hx
  have := (hi.pend x).mp ⟨h1, h2⟩
  simp only [Option.some.injEq] at this
  subst this
  exact absurd rfl h3

/-- Closing the entry in flight leaves no open entry. -/
theorem Inv.map_pend {minA : Nat} {e : Entry} {s : State} (hi : Inv minA (some e) s) (f : Entry → Entry)
    (hf : ∀ e', (f e').status = if e'.account == e.account && e'.ingress == e.ingress then .actioned else e'.status) (x : Entry)
    (hx : x ∈ s.actions.map f) : isActive x.status ≠ true := by
  intro h2
  obtain ⟨e0, h0, rfl⟩ := List.mem_map.mp hx
  rw [hf] at h2
  split at h2
  · cases h2
  · rename_i hc
    have := (hi.pend e0).mp ⟨h0, h2⟩
    simp only [Option.some.injEq] at this
    subst this
    simp at hc

theorem cleanup_eq (s : State) (a i : Nat) : ∃ ks rev, cleanupRegistration s a i = { s with keys := ks, rev := rev, actions := dropAction s.actions a i } := by
  unfold cleanupRegistration
  cases s.rev a with
  | none => exact ⟨s.keys, s.rev, rfl⟩
  | some k => exact ⟨_, _, rfl⟩

theorem complete_eq (s : State) (a i : Nat) : ∃ ks, (completeDeregistration s a i).1 =
    { s with keys := ks, authors := s.authors.filter (fun v => v != a),
             actions := s.actions.map fun e => if e.account == a && e.ingress == i then { e with status := .actioned } else e } := by
  unfold completeDeregistration
  obtain ⟨ks, h⟩ := removeKey_eq { s with authors := s.authors.filter fun v => v != a } a
  dsimp only
  rw [h]
  exact ⟨ks, rfl⟩

theorem Inv.next {minA : Nat} {p : Option Entry} {s s' : State} {x : Step} (hi : Inv minA p s) (hv : View minA p s x s') :
    ∃ p', Inv minA p' s' := by
  cases hv with
  | same => exact ⟨p, hi⟩
  | other hx =>
    refine ⟨p, hi.nodup, hi.lo, hi.hi, hi.uniq, hi.ing, hi.pend, hi.tx, ?_, ?_, ?_⟩
    · intro e he
      obtain ⟨h1, h2⟩ := hi.pok e he
      exact ⟨Nat.lt_succ_of_lt h1, h2⟩
    · intro t k a y h
      obtain ⟨h1, h2⟩ := hi.logP t k a y h
      exact ⟨Nat.lt_succ_of_lt h1, h2⟩
    · intro t ok h
      exact Nat.lt_succ_of_lt (hi.logA t ok h)
  | requested a k pos hx h1 h2 h3 h4 =>
    have hp := hi.none_of_inactive h4
    subst hp
    exact ⟨_, hi.record a k .registration _ _ (Or.inl ⟨rfl, h1, h3⟩)⟩
  | resigned a k hx h1 h2 h3 h4 =>
    have hp := hi.none_of_inactive h4
    subst hp
    exact ⟨_, hi.record a k .resignation s.keys s.rev (Or.inr ⟨rfl, h1, h3⟩)⟩
  | rotated a old new pos hx h1 h2 h3 =>
    exact ⟨p, hi.nodup, hi.lo, hi.hi, hi.uniq, hi.ing, hi.pend, hi.tx, hi.pok, hi.logP, hi.logA⟩
  | failReg e hx hp hk =>
    subst hp
    obtain ⟨ks, rev, h⟩ := cleanup_eq (noted s e.tx false) e.account e.ingress
    rw [h]
    exact ⟨none, hi.answer false hi.nodup hi.lo hi.hi (nodup_dropAction _ _ hi.uniq) (fun y hy => hi.ing y (mem_dropAction.mp hy).1)
      hi.drop_pend rfl rfl rfl rfl⟩
  | failRes e hx hp hk =>
    subst hp
    exact ⟨none, hi.answer false hi.nodup hi.lo hi.hi (nodup_dropAction _ _ hi.uniq) (fun y hy => hi.ing y (mem_dropAction.mp hy).1)
      hi.drop_pend rfl rfl rfl rfl⟩
  | joined e hx hp hk =>
    subst hp
    obtain ⟨q1, q2, q3, q4⟩ := hi.pok e rfl
    have q : e.account ∉ s.authors ∧ s.authors.length < maxAuthors := by
      rcases q4 with q4 | q4
      · exact q4.2
      · rw [hk] at q4; cases q4.1
    have hlo := hi.lo
    refine ⟨none, hi.answer true ?_ (by simp; omega) (by simp; omega) (nodup_mapAction _ (by intro e'; split <;> rfl) hi.uniq) ?_
      (hi.map_pend _ (by intro e'; split <;> rfl)) rfl rfl rfl rfl⟩
    · dsimp only
      rw [List.nodup_append]
      refine ⟨hi.nodup, by simp, ?_⟩
      intro v hv w hw h
      simp only [List.mem_singleton] at hw
      subst hw h
      exact q.1 hv
    · intro y hy
      simp only [setAction, List.mem_map] at hy
      obtain ⟨e0, h0, rfl⟩ := hy
      split <;> exact hi.ing e0 h0
  | left e hx hp hk =>
    subst hp
    obtain ⟨q1, q2, q3, q4⟩ := hi.pok e rfl
    have q : e.account ∈ s.authors ∧ minA < s.authors.length := by
      rcases q4 with q4 | q4
      · rw [hk] at q4; cases q4.1
      · exact q4.2
    have herase : s.authors.filter (fun v => v != e.account) = s.authors.erase e.account := (hi.nodup.erase_eq_filter _).symm
    obtain ⟨ks, h⟩ := complete_eq (noted s e.tx true) e.account e.ingress
    rw [h]
    refine ⟨none, hi.answer true (hi.nodup.filter _) ?_ (Nat.le_trans (List.length_filter_le _ _) hi.hi)
      (nodup_mapAction _ (by intro e'; split <;> rfl) hi.uniq) ?_ (hi.map_pend _ (by intro e'; split <;> rfl)) rfl rfl rfl rfl⟩
    · simp only [noted]
      rw [herase, List.length_erase_of_mem q.1]
      omega
    · intro y hy
      obtain ⟨e0, h0, rfl⟩ := List.mem_map.1 hy
      split <;> exact hi.ing e0 h0
  | session act dis vis f ks hx hf hks =>
    refine ⟨p.map f, hi.nodup, hi.lo, hi.hi, nodup_mapAction f (fun x => by simp [ekey, (hf x).1, (hf x).2.1]) hi.uniq, ?_, ?_, ?_, ?_, ?_, hi.logA⟩
    · intro e he
      obtain ⟨e0, h0, rfl⟩ := List.mem_map.1 he
      rw [(hf e0).2.1]; exact hi.ing e0 h0
    · intro e
      constructor
      · rintro ⟨h1, h2⟩
        obtain ⟨e0, h0, rfl⟩ := List.mem_map.1 h1
        rw [(hf e0).2.2.2.2] at h2
        rw [(hi.pend e0).1 ⟨h0, h2⟩]; rfl
      · intro h
        cases p with
        | none => cases h
        | some e0 =>
          simp only [Option.map_some, Option.some.injEq] at h
          obtain ⟨h1, h2⟩ := (hi.pend e0).2 rfl
          rw [← h]
          exact ⟨List.mem_map_of_mem h1, by rw [(hf e0).2.2.2.2]; exact h2⟩
    · intro t
      rw [hi.tx]
      cases p with
      | none => rfl
      | some e0 =>
        obtain ⟨a1, a2, a3, _⟩ := hf e0
        simp [a1, a2, a3]
    · intro e he
      cases p with
      | none => cases he
      | some e0 =>
        simp only [Option.map_some, Option.some.injEq] at he
        obtain ⟨a1, a2, a3, a4, _⟩ := hf e0
        have := hi.pok e0 rfl
        rw [← he, a1, a3, a4]
        exact this
    · intro t k a y h
      obtain ⟨h1, h2⟩ := hi.logP t k a y h
      refine ⟨h1, ?_⟩
      rcases h2 with h2 | ⟨e, rfl, h3, h4, h5⟩
      · exact Or.inl h2
      · obtain ⟨a1, a2, a3, a4, _⟩ := hf e
        exact Or.inr ⟨f e, rfl, a3.trans h3, a4.trans h4, a1.trans h5⟩

theorem run_snoc (minA : Nat) (s : State) (xs : List Step) (x : Step) : run minA s (xs ++ [x]) = step minA (run minA s xs) x := by
  simp [run, List.foldl_append]

/-- A usable genesis: distinct accounts and keys, and between the minimum and the maximum number of authors. -/
structure GoodGenesis (minA : Nat) (vs : List (Nat × Nat)) : Prop where
  accounts : (vs.map Prod.fst).Nodup
  keys : (vs.map Prod.snd).Nodup
  lo : minA ≤ vs.length
  hi : vs.length ≤ 256

theorem genesis_inv {minA : Nat} {vs : List (Nat × Nat)} (h : GoodGenesis minA vs) : Inv minA none (genesis vs) := by
  refine ⟨h.accounts, ?_, ?_, ?_, ?_, ?_, ?_, ?_, ?_, ?_⟩
  · simpa [genesis] using h.lo
  · simpa [genesis, maxAuthors] using h.hi
  · simp [genesis]
  · intro e he; simp [genesis] at he
  · intro e; simp [genesis]
  · intro t; rfl
  · intro e he; cases he
  · intro t k a y h'; simp [genesis] at h'
  · intro t ok h'; simp [genesis] at h'

theorem run_inv {minA : Nat} {vs : List (Nat × Nat)} (h : GoodGenesis minA vs) (xs : List Step) :
    ∃ p, Inv minA p (run minA (genesis vs) xs) := by
  induction xs using List.reverseRecOn with
  | nil => exact ⟨none, genesis_inv h⟩
  | append_singleton xs x ih =>
    obtain ⟨p, ih⟩ := ih
    rw [run_snoc]
    exact ih.next (step_view ih x)

end Verif.Authors
