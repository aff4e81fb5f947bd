import Verif.Props.Authors

/-!
# C153: requests to change the author set are honoured
-/

namespace Verif.Authors

/-- A change of the author set is under way: some request waits for Ethereum, or was confirmed by a session and not yet cleared. -/
def ChangeOpen (s : State) : Prop := ∃ e ∈ s.actions, e.status = .awaiting ∨ e.status = .confirmed

theorem hasActive_iff (s : State) : hasActive s = true ↔ ChangeOpen s := by
  unfold hasActive ChangeOpen
  rw [List.any_eq_true]
  constructor
  · rintro ⟨e, he, h⟩
    refine ⟨e, he, ?_⟩
    cases hs : e.status <;> rw [hs] at h <;> simp [isActive] at h ⊢
  · rintro ⟨e, he, h⟩
    refine ⟨e, he, ?_⟩
    rcases h with h | h <;> rw [h] <;> rfl

/-- A key has no owner: no pair with it is stored. -/
def Free (s : State) (k : Nat) : Prop := ∀ a, (k, a) ∉ s.keys

theorem keyOwner_free (l : List (Nat × Nat)) (k : Nat) : keyOwner l k = none ↔ ∀ a, (k, a) ∉ l := by
  unfold keyOwner
  rw [Option.map_eq_none_iff, List.find?_eq_none]
  constructor
  · intro h a ha
    have := h _ ha
    simp at this
  · rintro h ⟨k', a⟩ ha hk
    simp only [beq_iff_eq] at hk
    subst hk
    exact h a ha

/-- **C153, additions.** Root's request to add an author is accepted exactly if there are authors, fewer than 256, the account is not one of them
and has session keys, the Ethereum key is nobody's and decompresses, no change is under way and the bridge takes the request. -/
theorem C153_addition_accepted_iff (s : State) (a k pos : Nat) (sessionKeys keyOk bridgeOk : Bool) :
    (addAuthor s a k pos sessionKeys keyOk bridgeOk).2 = none ↔
      0 < s.authors.length ∧ s.authors.length < 256 ∧ a ∉ s.authors ∧ sessionKeys = true ∧ Free s k ∧ keyOk = true ∧
        ¬ ChangeOpen s ∧ bridgeOk = true := by
  have hfree : Free s k ↔ keyOwner s.keys k = none := (keyOwner_free s.keys k).symm
  rw [← hasActive_iff, hfree]
  unfold addAuthor maxAuthors
  constructor
  · intro h
    repeat' split at h
    all_goals first | (cases h; done) | skip
    rename_i h1 h2 h3 h4 h5 h6 h7 h8
    refine ⟨List.length_pos_iff.2 h1, by omega, h2, by simpa using h5, by simpa using h3, by simpa using h7, h6, by simpa using h8⟩
  · rintro ⟨h1, h2, h3, h4, h5, h6, h7, h8⟩
    rw [if_neg (List.length_pos_iff.1 h1), if_neg h3, if_neg (by simp [h5]), if_neg (by omega), if_neg (by simp [h4]), if_neg h7,
      if_neg (by simp [h6]), if_neg (by simp [h8])]

theorem keyOwner_put (l : List (Nat × Nat)) (pos k a k' : Nat) :
    keyOwner (putKey l pos k a) k' = if k' = k then some a else keyOwner l k' := by
  have hd : ∀ x ∈ dropKey l k, x.1 ≠ k := by
    intro x hx
    have := (List.mem_filter.1 hx).2
    simpa using this
  have hdrop : k' ≠ k → keyOwner (dropKey l k) k' = keyOwner l k' := by
    intro hne
    unfold keyOwner dropKey
    rw [List.find?_filter]
    congr 2
    funext x
    by_cases h : x.1 = k'
    · simp [h, hne]
    · simp [h]
  unfold keyOwner putKey
  rw [List.find?_append]
  by_cases h : k' = k
  · subst h
    rw [if_pos rfl]
    have : List.find? (fun x => x.1 == k') ((dropKey l k').take pos) = none := by
      rw [List.find?_eq_none]
      intro x hx
      simpa using hd x (List.mem_of_mem_take hx)
    rw [this]
    simp
  · rw [if_neg h, List.find?_cons_of_neg (by simpa using Ne.symm h), ← List.find?_append, List.take_append_drop]
    exact hdrop h

theorem keyOwner_drop (l : List (Nat × Nat)) (k k' : Nat) :
    keyOwner (dropKey l k) k' = if k' = k then none else keyOwner l k' := by
  by_cases h : k' = k
  · subst h
    rw [if_pos rfl, keyOwner_free]
    intro a ha
    have := (List.mem_filter.1 ha).2
    simp at this
  · rw [if_neg h]
    unfold keyOwner dropKey
    rw [List.find?_filter]
    congr 2
    funext x
    by_cases h2 : x.1 = k'
    · simp [h2, h]
    · simp [h2]

/-- **C153, what an accepted addition does.** It hands one request, naming the account and the key, to the bridge, makes the key the account's, opens one
change, and touches no author and no other key. -/
theorem C153_addition_effect (minA : Nat) (s : State) (a k pos : Nat) (sk ko bo : Bool)
    (h : (addAuthor s a k pos sk ko bo).2 = none) :
    let s' := step minA s (.add a k pos sk ko bo)
    s'.authors = s.authors ∧ s'.log = s.log ++ [.published s.nextTx .registration a k] ∧
      (∀ k', keyOwner s'.keys k' = if k' = k then some a else keyOwner s.keys k') ∧
      s'.rev a = some k ∧ (∀ b, b ≠ a → s'.rev b = s.rev b) ∧ s'.txMap s.nextTx = some (a, s.ingress + 1) ∧
      getAction s' a (s.ingress + 1) = some ⟨a, s.ingress + 1, .awaiting, s.nextTx, .registration⟩ := by
  have e : step minA s (.add a k pos sk ko bo) =
      recordAction { s with keys := putKey s.keys pos k a, rev := upd s.rev a (some k) } a k .registration := by
    show commit s (addAuthor s a k pos sk ko bo) = _
    have h5 := (C153_addition_accepted_iff s a k pos sk ko bo).1 h
    obtain ⟨h1, h2, h3, h4, h5, h6, h7, h8⟩ := h5
    have h5 := (keyOwner_free s.keys k).2 h5
    rw [← hasActive_iff] at h7
    unfold addAuthor maxAuthors
    rw [if_neg (List.length_pos_iff.1 h1), if_neg h3, if_neg (by simp [h5]), if_neg (by omega), if_neg (by simp [h4]), if_neg h7,
      if_neg (by simp [h6]), if_neg (by simp [h8])]
    rfl
  rw [e]
  exact ⟨rfl, rfl, fun k' => keyOwner_put _ _ _ _ _, upd_same _ _ _, fun b hb => upd_ne _ _ hb, upd_same _ _ _,
    by simp [getAction, recordAction]⟩

/-- **C153, removals.** Root's request to remove an author is accepted exactly if more than the minimum number of authors are left, the account is one of
them, no change is under way, an Ethereum key is on file for it and decompresses, and the bridge takes the request. It then hands one request for that account
and key to the bridge and opens one change; the account stays an author with its key until Ethereum has answered. -/
theorem C153_removal (minA : Nat) (s : State) (a : Nat) (ko bo : Bool) :
    ((removeAuthor minA s a ko bo).2 = none ↔ minA < s.authors.length ∧ a ∈ s.authors ∧ ¬ ChangeOpen s ∧ (∃ k, s.rev a = some k) ∧
      ko = true ∧ bo = true) ∧
    ∀ k, s.rev a = some k → (removeAuthor minA s a ko bo).2 = none →
      let s' := step minA s (.remove a ko bo)
      s'.authors = s.authors ∧ s'.keys = s.keys ∧ s'.rev = s.rev ∧ s'.log = s.log ++ [.published s.nextTx .resignation a k] ∧
        s'.txMap s.nextTx = some (a, s.ingress + 1) ∧
        getAction s' a (s.ingress + 1) = some ⟨a, s.ingress + 1, .awaiting, s.nextTx, .resignation⟩ := by
  rw [← hasActive_iff]
  have key : (removeAuthor minA s a ko bo).2 = none ↔ minA < s.authors.length ∧ a ∈ s.authors ∧ ¬ hasActive s = true ∧ (∃ k, s.rev a = some k) ∧
      ko = true ∧ bo = true := by
    unfold removeAuthor
    cases hr : s.rev a with
    | none =>
      dsimp only
      constructor
      · intro h
        repeat' split at h
        all_goals cases h
      · rintro ⟨-, -, -, ⟨k, h⟩, -⟩; cases h
    | some k =>
      dsimp only
      constructor
      · intro h
        repeat' split at h
        all_goals first | (cases h; done) | skip
        rename_i h1 h2 h3 h4 h5
        exact ⟨by omega, by simpa using h2, h3, ⟨k, rfl⟩, by simpa using h4, by simpa using h5⟩
      · rintro ⟨h1, h2, h3, -, h4, h5⟩
        rw [if_neg (by omega), if_neg (by simpa using h2), if_neg h3, if_neg (by simp [h4]), if_neg (by simp [h5])]
  refine ⟨key, ?_⟩
  intro k hk h
  obtain ⟨h1, h2, h3, -, h4, h5⟩ := key.1 h
  have e : step minA s (.remove a ko bo) = recordAction s a k .resignation := by
    show commit s (removeAuthor minA s a ko bo) = _
    unfold removeAuthor
    rw [if_neg (by omega), if_neg (by simpa using h2), if_neg h3, hk]
    dsimp only
    rw [if_neg (by simp [h4]), if_neg (by simp [h5])]
    rfl
  rw [e]
  exact ⟨rfl, rfl, rfl, rfl, upd_same _ _ _, by simp [getAction, recordAction]⟩

/-- **C153, rotations.** Root's request to replace an author's Ethereum key is accepted exactly if the old key is the account's and the new one is nobody's;
the account then owns the new key, the old one is free, no other key changes hands, and nothing else changes (the key on file for removals stays the old one). -/
theorem C153_rotation (minA : Nat) (s : State) (a old new pos : Nat) :
    ((rotateKey s a old new pos).2 = none ↔ keyOwner s.keys old = some a ∧ keyOwner s.keys new = none) ∧
      ((rotateKey s a old new pos).2 = none →
        let s' := step minA s (.rotate a old new pos)
        (∀ k, keyOwner s'.keys k = if k = new then some a else if k = old then none else keyOwner s.keys k) ∧
          s' = { s with keys := s'.keys }) := by
  have key : (rotateKey s a old new pos).2 = none ↔ keyOwner s.keys old = some a ∧ keyOwner s.keys new = none := by
    unfold rotateKey
    constructor
    · intro h
      repeat' split at h
      all_goals first | (cases h; done) | skip
      rename_i h1 h2 _ b hb h3
      refine ⟨?_, by simpa using h1⟩
      rw [hb]; simp at h3; rw [h3]
    · rintro ⟨h1, h2⟩
      have hne : old ≠ new := by rintro rfl; rw [h1] at h2; cases h2
      rw [if_neg (by simp [h2]), if_neg hne, h1]
      dsimp only
      rw [if_neg (by simp)]
  refine ⟨key, fun h => ?_⟩
  obtain ⟨h1, h2⟩ := key.1 h
  have hne : old ≠ new := by rintro rfl; rw [h1] at h2; cases h2
  have e : step minA s (.rotate a old new pos) = { s with keys := putKey (dropKey s.keys old) pos new a } := by
    show commit s (rotateKey s a old new pos) = _
    unfold rotateKey
    rw [if_neg (by simp [h2]), if_neg hne, h1]
    dsimp only
    rw [if_neg (by simp)]
    rfl
  rw [e]
  refine ⟨fun k => ?_, rfl⟩
  dsimp only
  rw [keyOwner_put, keyOwner_drop]

/-! ### Examples -/

/-- An accepted addition, removal and rotation. -/
example : (addAuthor (genesis [(1, 101), (2, 102), (3, 103)]) 4 104 0 true true true).2 = none ∧
    (removeAuthor 2 (genesis [(1, 101), (2, 102), (3, 103)]) 3 true true).2 = none ∧
    (rotateKey (genesis [(1, 101), (2, 102), (3, 103)]) 2 102 202 0).2 = none := by decide +kernel
/-- Refused: while an addition is under way; at the minimum; with a key that is taken. -/
example :
    (removeAuthor 2 (run 2 (genesis [(1, 101), (2, 102), (3, 103)]) [.add 4 104 0 true true true]) 1 true true).2 = some .actionInProgress ∧
    (removeAuthor 3 (genesis [(1, 101), (2, 102), (3, 103)]) 1 true true).2 = some .minimumReached ∧
    (addAuthor (genesis [(1, 101), (2, 102), (3, 103)]) 4 102 0 true true true).2 = some .ethKeyAlreadyExists := by decide +kernel

end Verif.Authors
