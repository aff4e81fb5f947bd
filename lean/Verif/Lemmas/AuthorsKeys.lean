import Verif.Lemmas.Authors

namespace Verif.Authors

/-- The keys are in order; `p` is the change in flight. -/
structure KeyInv (p : Option Entry) (s : State) : Prop where
  fst : (s.keys.map Prod.fst).Nodup
  snd : (s.keys.map Prod.snd).Nodup
  back : ∀ k a, (k, a) ∈ s.keys → s.rev a = some k
  has : ∀ a ∈ s.authors, ∃ k, (k, a) ∈ s.keys
  owner : ∀ k a, (k, a) ∈ s.keys → a ∈ s.authors ∨ ∃ e, p = some e ∧ e.kind = .registration ∧ e.account = a
  pend : ∀ e, p = some e → e.kind = .registration → ∃ k, (k, e.account) ∈ s.keys

theorem mem_dropKey {l : List (Nat × Nat)} {k : Nat} {x : Nat × Nat} : x ∈ dropKey l k ↔ x ∈ l ∧ x.1 ≠ k := by
  simp [dropKey, List.mem_filter]

theorem mem_putKey {l : List (Nat × Nat)} {pos k a : Nat} {x : Nat × Nat} : x ∈ putKey l pos k a ↔ x = (k, a) ∨ x ∈ l ∧ x.1 ≠ k := by
  unfold putKey
  rw [← mem_dropKey (l := l), List.mem_append, List.mem_cons]
  conv_rhs => rw [← List.take_append_drop pos (dropKey l k), List.mem_append]
  constructor
  · rintro (h | h | h)
    · exact .inr (.inl h)
    · exact .inl h
    · exact .inr (.inr h)
  · rintro (h | h | h)
    · exact .inr (.inl h)
    · exact .inl h
    · exact .inr (.inr h)

theorem keyOwner_none {l : List (Nat × Nat)} {k : Nat} : keyOwner l k = none ↔ ∀ x ∈ l, x.1 ≠ k := by
  simp [keyOwner]

theorem keyOwner_some {l : List (Nat × Nat)} (h : (l.map Prod.fst).Nodup) {k a : Nat} : keyOwner l k = some a ↔ (k, a) ∈ l := by
  constructor
  · intro h1
    simp only [keyOwner, Option.map_eq_some_iff] at h1
    obtain ⟨x, hx, rfl⟩ := h1
    have h2 := List.find?_some hx
    have h3 := List.mem_of_find?_eq_some hx
    simp only [beq_iff_eq] at h2
    rw [← h2]; exact h3
  · intro h1
    cases hf : l.find? (fun x => x.1 == k) with
    | none =>
      have := List.find?_eq_none.1 hf _ h1
      simp at this
    | some x =>
      have h2 := List.find?_some hf
      have h3 := List.mem_of_find?_eq_some hf
      simp only [beq_iff_eq] at h2
      have : x = (k, a) := List.inj_on_of_nodup_map h h3 h1 h2
      simp [keyOwner, hf, this]

theorem putKey_map_nodup {l : List (Nat × Nat)} (g : Nat × Nat → Nat) (pos k a : Nat) (h : (l.map g).Nodup)
    (hn : ∀ x ∈ l, x.1 ≠ k → g x ≠ g (k, a)) : ((putKey l pos k a).map g).Nodup := by
  have hp : (putKey l pos k a).Perm ((k, a) :: dropKey l k) := by
    unfold putKey
    refine List.perm_middle.trans ?_
    rw [List.take_append_drop]
  rw [(hp.map g).nodup_iff, List.map_cons, List.nodup_cons]
  refine ⟨?_, h.sublist (List.Sublist.map _ List.filter_sublist)⟩
  intro hc
  obtain ⟨x, hx, he⟩ := List.mem_map.1 hc
  obtain ⟨h1, h2⟩ := mem_dropKey.1 hx
  exact hn x h1 h2 he

theorem removeKey_keys {s : State} (h1 : (s.keys.map Prod.fst).Nodup) (h2 : (s.keys.map Prod.snd).Nodup) (a : Nat) :
    ∀ x, x ∈ (removeKey s a).keys ↔ x ∈ s.keys ∧ x.2 ≠ a := by
  intro x
  unfold removeKey
  cases hf : s.keys.find? (fun x => x.2 == a) with
  | none =>
    have := List.find?_eq_none.1 hf
    constructor
    · intro h; exact ⟨h, by simpa using this x h⟩
    · exact fun h => h.1
  | some y =>
    have g2 := List.find?_some hf
    have g3 := List.mem_of_find?_eq_some hf
    simp only [beq_iff_eq] at g2
    simp only [mem_dropKey]
    constructor
    · rintro ⟨h, hn⟩
      refine ⟨h, fun hc => hn ?_⟩
      rw [List.inj_on_of_nodup_map h2 h g3 (hc.trans g2.symm)]
    · rintro ⟨h, hn⟩
      refine ⟨h, fun hc => hn ?_⟩
      rw [List.inj_on_of_nodup_map h1 h g3 hc]; exact g2

theorem removeKey_sub (s : State) (a : Nat) : (removeKey s a).keys.Sublist s.keys := by
  unfold removeKey
  cases s.keys.find? (fun x => x.2 == a) with
  | none => exact List.Sublist.refl _
  | some y => exact List.filter_sublist

/-- A step that changes no keys behind the pallet's back: no rotation, and in a session every author is active or disabled. -/
def Calm (s : State) : Step → Prop
  | .rotate .. => False
  | .session act dis _ => ∀ a ∈ s.authors, a ∈ act ∨ a ∈ dis
  | _ => True

/-- All steps of a history are calm. -/
def AllCalm (minA : Nat) (s : State) (xs : List Step) : Prop :=
  ∀ ys x, ys ++ [x] <+: xs → Calm (run minA s ys) x

theorem KeyInv.next {minA : Nat} {p : Option Entry} {s s' : State} {x : Step} (hi : Inv minA p s) (hk : KeyInv p s)
    (hv : View minA p s x s') (hc : Calm s x) : ∃ p', Inv minA p' s' ∧ KeyInv p' s' := by
  suffices h : ∀ p', Inv minA p' s' → KeyInv p' s' by
    obtain ⟨p', hi'⟩ := hi.next hv
    exact ⟨p', hi', h p' hi'⟩
  intro p' hi'
  have none_of : ∀ (q : Option Entry), (∀ e ∈ s'.actions, isActive e.status ≠ true) → Inv minA q s' → q = none := by
    intro q hq hqi
    cases q with
    | none => rfl
    | some e =>
      obtain ⟨h1, h2⟩ := (hqi.pend e).2 rfl
      exact absurd h2 (hq e h1)
  cases hv with
  | same =>
    have : p' = p := by
      cases p with
      | none =>
        cases p' with
        | none => rfl
        | some e => exact absurd ((hi.pend e).1 ((hi'.pend e).2 rfl)) (by simp)
      | some e => exact (hi'.pend e).1 ((hi.pend e).2 rfl)
    rw [this]; exact hk
  | other hx =>
    have : p' = p := by
      cases p with
      | none =>
        cases p' with
        | none => rfl
        | some e => exact absurd ((hi.pend e).1 ((hi'.pend e).2 rfl)) (by simp)
      | some e => exact (hi'.pend e).1 ((hi.pend e).2 rfl)
    rw [this]; exact ⟨hk.fst, hk.snd, hk.back, hk.has, hk.owner, hk.pend⟩
  | requested a k pos hx h1 h2 h3 h4 =>
    have hp := hi.none_of_inactive h4
    subst hp
    have he : p' = some ⟨a, s.ingress + 1, .awaiting, s.nextTx, .registration⟩ :=
      (hi'.pend _).1 ⟨by simp [requested, recordAction], rfl⟩
    have hno : ∀ k', (k', a) ∉ s.keys := by
      intro k' hm
      rcases hk.owner _ _ hm with h | ⟨e, h, _⟩
      · exact h1 h
      · cases h
    have hkn := keyOwner_none.1 h2
    subst he
    refine ⟨?_, ?_, ?_, ?_, ?_, ?_⟩
    · exact putKey_map_nodup _ _ _ _ hk.fst (fun x _ h => h)
    · refine putKey_map_nodup _ _ _ _ hk.snd (fun x hm _ h => hno x.1 ?_)
      simp only at h
      rw [← h]; exact hm
    · intro k' a' hm
      simp only [requested, recordAction] at hm ⊢
      rcases mem_putKey.1 hm with h | ⟨h, _⟩
      · injection h with e1 e2; subst e1 e2; simp
      · have : a' ≠ a := by rintro rfl; exact hno _ h
        rw [upd_ne _ _ this]; exact hk.back _ _ h
    · intro a' ha'
      obtain ⟨k', hk'⟩ := hk.has a' ha'
      exact ⟨k', mem_putKey.2 (.inr ⟨hk', hkn _ hk'⟩)⟩
    · intro k' a' hm
      rcases mem_putKey.1 hm with h | ⟨h, _⟩
      · injection h with e1 e2; subst e1 e2; exact .inr ⟨_, rfl, rfl, rfl⟩
      · rcases hk.owner _ _ h with h | ⟨e, h, _⟩
        · exact .inl h
        · cases h
    · intro e he _
      injection he with he
      subst he
      exact ⟨k, mem_putKey.2 (.inl rfl)⟩
  | resigned a k hx h1 h2 h3 h4 =>
    have hp := hi.none_of_inactive h4
    subst hp
    have he : p' = some ⟨a, s.ingress + 1, .awaiting, s.nextTx, .resignation⟩ :=
      (hi'.pend _).1 ⟨by simp [recordAction], rfl⟩
    subst he
    refine ⟨hk.fst, hk.snd, hk.back, hk.has, ?_, ?_⟩
    · intro k' a' hm
      rcases hk.owner _ _ hm with h | ⟨e, h, _⟩
      · exact .inl h
      · cases h
    · intro e he h
      injection he with he
      subst he
      cases h
  | rotated a old new pos hx h1 h2 h3 => subst hx; exact absurd hc id
  | failReg e hx hp hkd =>
    subst hp
    obtain ⟨k0, hk0⟩ := hk.pend e rfl hkd
    have hr := hk.back _ _ hk0
    have hpe : p' = none := by
      apply none_of p' _ hi'
      obtain ⟨ks, rev, h⟩ := cleanup_eq (noted s e.tx false) e.account e.ingress
      rw [h]; exact hi.drop_pend
    subst hpe
    have hq : e.account ∉ s.authors := by
      rcases (hi.pok e rfl).2.2.2 with q | q
      · exact q.2.1
      · rw [hkd] at q; cases q.1
    have heq : cleanupRegistration (noted s e.tx false) e.account e.ingress =
        { noted s e.tx false with keys := dropKey s.keys k0, rev := upd s.rev e.account none, actions := dropAction s.actions e.account e.ingress } := by
      simp only [cleanupRegistration, noted, hr]
    rw [heq]
    have huse : ∀ k' a', (k', a') ∈ s.keys → k' ≠ k0 → a' ≠ e.account := by
      rintro k' a' h h' rfl
      have := List.inj_on_of_nodup_map hk.snd h hk0 rfl
      injection this with e1 e2
      exact h' e1
    refine ⟨?_, ?_, ?_, ?_, ?_, ?_⟩
    · exact hk.fst.sublist (List.Sublist.map _ List.filter_sublist)
    · exact hk.snd.sublist (List.Sublist.map _ List.filter_sublist)
    · intro k' a' hm
      obtain ⟨h1, h2⟩ := mem_dropKey.1 hm
      simp only [noted]
      rw [upd_ne _ _ (huse _ _ h1 h2)]
      exact hk.back _ _ h1
    · intro a' ha'
      obtain ⟨k', hk'⟩ := hk.has a' ha'
      refine ⟨k', mem_dropKey.2 ⟨hk', ?_⟩⟩
      rintro rfl
      have := List.inj_on_of_nodup_map hk.fst hk' hk0 rfl
      injection this with e1 e2
      subst e2
      exact hq ha'
    · intro k' a' hm
      obtain ⟨h1, h2⟩ := mem_dropKey.1 hm
      rcases hk.owner _ _ h1 with h | ⟨e', h, _, h5⟩
      · exact .inl h
      · injection h with h; subst h
        exact absurd h5.symm (huse _ _ h1 h2)
    · intro e' he; cases he
  | failRes e hx hp hkd =>
    subst hp
    have hpe : p' = none := none_of p' hi.drop_pend hi'
    subst hpe
    refine ⟨hk.fst, hk.snd, hk.back, hk.has, ?_, by intro e he; cases he⟩
    intro k' a' hm
    rcases hk.owner _ _ hm with h | ⟨e', h, h4, h5⟩
    · exact .inl h
    · injection h with h; subst h
      rw [hkd] at h4; cases h4
  | joined e hx hp hkd =>
    subst hp
    have hpe : p' = none := none_of p' (hi.map_pend _ (by intro e'; split <;> rfl)) hi'
    subst hpe
    refine ⟨hk.fst, hk.snd, hk.back, ?_, ?_, by intro e he; cases he⟩
    · intro a' ha'
      rcases List.mem_append.1 ha' with h | h
      · exact hk.has a' h
      · rw [List.mem_singleton] at h; subst h
        exact hk.pend e rfl hkd
    · intro k' a' hm
      rcases hk.owner _ _ hm with h | ⟨e', h, h4, h5⟩
      · exact .inl (List.mem_append_left _ h)
      · injection h with h; subst h
        exact .inl (List.mem_append_right _ (by simp [h5]))
  | left e hx hp hkd =>
    subst hp
    obtain ⟨ks, heq⟩ := complete_eq (noted s e.tx true) e.account e.ingress
    have hpe : p' = none := by
      apply none_of p' _ hi'
      rw [heq]; exact hi.map_pend _ (by intro e'; split <;> rfl)
    subst hpe
    have hks : ks = (removeKey { noted s e.tx true with authors := s.authors.filter fun v => v != e.account } e.account).keys := by
      have := congrArg State.keys heq
      simp only at this
      rw [← this]; rfl
    have hsub : ks.Sublist s.keys := by rw [hks]; exact removeKey_sub _ _
    have hm : ∀ x, x ∈ ks ↔ x ∈ s.keys ∧ x.2 ≠ e.account := by
      intro x; rw [hks]
      exact removeKey_keys (s := { noted s e.tx true with authors := s.authors.filter fun v => v != e.account }) hk.fst hk.snd _ x
    rw [heq]
    refine ⟨hk.fst.sublist (hsub.map _), hk.snd.sublist (hsub.map _), ?_, ?_, ?_, by intro e he; cases he⟩
    · intro k' a' h; exact hk.back _ _ ((hm _).1 h).1
    · intro a' ha'
      simp only [noted, List.mem_filter, bne_iff_ne] at ha'
      obtain ⟨k', hk'⟩ := hk.has a' ha'.1
      exact ⟨k', (hm _).2 ⟨hk', ha'.2⟩⟩
    · intro k' a' h
      obtain ⟨h1, h2⟩ := (hm _).1 h
      rcases hk.owner _ _ h1 with h | ⟨e', h, h4, h5⟩
      · left; simp only [noted, List.mem_filter, bne_iff_ne]; exact ⟨h, h2⟩
      · injection h with h; subst h
        exact absurd h5.symm h2
  | session act dis vis f ks hx hf hks =>
    subst hx
    have hks' : ks = s.keys := by
      rcases hks with h | ⟨e, h1, h2, h3, h4⟩
      · exact h
      · exfalso
        have hp := (hi.pend e).1 ⟨h1, h2⟩
        rcases (hi.pok e hp).2.2.2 with q | q
        · rw [h3] at q; cases q.1
        · exact h4 (hc _ q.2.1)
    subst hks'
    have hpe : p' = p.map f := by
      cases p with
      | none =>
        cases p' with
        | none => rfl
        | some e =>
          obtain ⟨h1, h2⟩ := (hi'.pend e).2 rfl
          obtain ⟨e0, h0, rfl⟩ := List.mem_map.1 h1
          rw [(hf e0).2.2.2.2] at h2
          exact absurd ((hi.pend e0).1 ⟨h0, h2⟩) (by simp)
      | some e =>
        obtain ⟨h1, h2⟩ := (hi.pend e).2 rfl
        exact (hi'.pend (f e)).1 ⟨List.mem_map_of_mem h1, by rw [(hf e).2.2.2.2]; exact h2⟩
    subst hpe
    refine ⟨hk.fst, hk.snd, hk.back, hk.has, ?_, ?_⟩
    · intro k' a' hm
      rcases hk.owner _ _ hm with h | ⟨e', h, h4, h5⟩
      · exact .inl h
      · subst h
        obtain ⟨a1, a2, a3, a4, _⟩ := hf e'
        exact .inr ⟨f e', rfl, a4.trans h4, a1.trans h5⟩
    · intro e he h
      cases p with
      | none => cases he
      | some e0 =>
        simp only [Option.map_some, Option.some.injEq] at he
        subst he
        obtain ⟨a1, a2, a3, a4, _⟩ := hf e0
        obtain ⟨k, hk'⟩ := hk.pend e0 rfl (a4.symm.trans h)
        exact ⟨k, by rw [a1]; exact hk'⟩

theorem genesis_keyInv {minA : Nat} {vs : List (Nat × Nat)} (h : GoodGenesis minA vs) : KeyInv none (genesis vs) := by
  refine ⟨?_, ?_, ?_, ?_, ?_, by intro e he; cases he⟩
  · have : (genesis vs).keys.map Prod.fst = vs.map Prod.snd := by simp [genesis, Function.comp_def]
    rw [this]; exact h.keys
  · have : (genesis vs).keys.map Prod.snd = vs.map Prod.fst := by simp [genesis, Function.comp_def]
    rw [this]; exact h.accounts
  · intro k a hm
    simp only [genesis, List.mem_map, Prod.mk.injEq] at hm
    obtain ⟨⟨x, y⟩, hx, rfl, rfl⟩ := hm
    simp only [genesis]
    cases hf : vs.find? (fun v => v.1 == x) with
    | none =>
      have := List.find?_eq_none.1 hf _ hx
      simp at this
    | some z =>
      have h2 := List.find?_some hf
      have h3 := List.mem_of_find?_eq_some hf
      simp only [beq_iff_eq] at h2
      have : z = (x, y) := List.inj_on_of_nodup_map h.accounts h3 hx h2
      simp [this]
  · intro a ha
    simp only [genesis, List.mem_map] at ha ⊢
    obtain ⟨x, hx, rfl⟩ := ha
    exact ⟨x.2, x, hx, rfl⟩
  · intro k a hm
    simp only [genesis, List.mem_map, Prod.mk.injEq] at hm ⊢
    obtain ⟨x, hx, rfl, rfl⟩ := hm
    exact .inl ⟨x, hx, rfl⟩

theorem run_keyInv {minA : Nat} {vs : List (Nat × Nat)} (h : GoodGenesis minA vs) (xs : List Step)
    (hc : AllCalm minA (genesis vs) xs) : ∃ p, Inv minA p (run minA (genesis vs) xs) ∧ KeyInv p (run minA (genesis vs) xs) := by
  induction xs using List.reverseRecOn with
  | nil => exact ⟨none, genesis_inv h, genesis_keyInv h⟩
  | append_singleton xs x ih =>
    obtain ⟨p, ih, ihk⟩ := ih (fun ys y hy => hc ys y (hy.trans (List.prefix_append ..)))
    rw [run_snoc]
    exact ihk.next ih (step_view ih x) (hc xs x (List.prefix_refl _))

end Verif.Authors
