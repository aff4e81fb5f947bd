import Verif.Props.ValidatorsSession

/-!
# C148: requests to change the validator set are honoured
-/

namespace Verif.Validators

/-- A change of the validator set is under way: some request waits for Ethereum, or was confirmed by a session and not yet cleared. -/
def ChangeOpen (s : State) : Prop := ∃ e ∈ s.actions, e.status = .awaiting ∨ e.status = .confirmed

theorem hasActive_iff (s : State) : hasActive s = true ↔ ChangeOpen s := by
  unfold hasActive ChangeOpen
  rw [List.any_eq_true]
  constructor
  · rintro ⟨e, he, h⟩
    refine ⟨e, he, ?_⟩
    cases hs : e.status <;> rw [hs] at h <;> simp [isActive] at h ⊢
  · rintro ⟨e, he, h⟩
    refine ⟨e, he, ?_⟩
    rcases h with h | h <;> rw [h] <;> rfl

/-- **C148, additions.** Root's request to add a validator is accepted exactly if there are validators, fewer than 256, the account is
not one of them and has session keys, the Ethereum key is nobody's and decompresses, no change is under way, staking has no objection and
the bridge takes the request. -/
theorem C148_addition_accepted_iff (s : State) (a k d : Nat) (sessionKeys stakingOk keyOk bridgeOk : Bool) :
    (addCollator s a k d sessionKeys stakingOk keyOk bridgeOk).2 = none ↔
      0 < s.validators.length ∧ s.validators.length < 256 ∧ a ∉ s.validators ∧ sessionKeys = true ∧ s.keys k = none ∧ keyOk = true ∧
        ¬ ChangeOpen s ∧ stakingOk = true ∧ bridgeOk = true := by
  rw [← hasActive_iff]
  unfold addCollator maxValidators
  constructor
  · intro h
    repeat' split at h
    all_goals first | (cases h; done) | skip
    rename_i h1 h2 h3 h4 h5 h6 h7 h8 h9
    refine ⟨List.length_pos_iff.2 h1, by omega, h2, by simpa using h5, by simpa using h3, by simpa using h8, h6, by simpa using h7,
      by simpa using h9⟩
  · rintro ⟨h1, h2, h3, h4, h5, h6, h7, h8, h9⟩
    rw [if_neg (List.length_pos_iff.1 h1), if_neg h3, if_neg (by simp [h5]), if_neg (by omega), if_neg (by simp [h4]), if_neg h7,
      if_neg (by simp [h8]), if_neg (by simp [h6]), if_neg (by simp [h9])]

/-- **C148, what an accepted addition does.** It hands one request for that account to the bridge, stores the key in both directions and
the deposit, opens one change, and touches no validator and nobody else's key or deposit. -/
theorem C148_addition_effect (minV : Nat) (s : State) (a k d : Nat) (sk st ko bo : Bool)
    (h : (addCollator s a k d sk st ko bo).2 = none) :
    let s' := step minV s (.add a k d sk st ko bo)
    s'.validators = s.validators ∧ s'.log = s.log ++ [.published s.nextTx .registration a] ∧ s'.keys k = some a ∧ s'.rev a = some k ∧
      s'.deposits a = some d ∧ s'.txMap s.nextTx = some (a, s.ingress + 1) ∧
      getAction s' a (s.ingress + 1) = some ⟨a, s.ingress + 1, .awaiting, s.nextTx, .registration⟩ ∧
      (∀ k', k' ≠ k → s'.keys k' = s.keys k') ∧ (∀ b, b ≠ a → s'.rev b = s.rev b ∧ s'.deposits b = s.deposits b) ∧
      (∀ e ∈ s.actions, ekey e ≠ (a, s.ingress + 1) → e ∈ s'.actions) := by
  have e : step minV s (.add a k d sk st ko bo) = recordAction { s with deposits := upd s.deposits a (some d), keys := upd s.keys k (some a), rev := upd s.rev a (some k) } a .registration := by
    obtain ⟨h1, h2, h3, h4, h5, h6, h7, h8, h9⟩ := (C148_addition_accepted_iff s a k d sk st ko bo).1 h
    rw [← hasActive_iff] at h7
    unfold step addCollator maxValidators
    dsimp only
    rw [if_neg (List.length_pos_iff.1 h1), if_neg h3, if_neg (by simp [h5]), if_neg (by omega), if_neg (by simp [h4]), if_neg h7,
      if_neg (by simp [h8]), if_neg (by simp [h6]), if_neg (by simp [h9])]
    rfl
  rw [e]
  refine ⟨rfl, rfl, upd_same _ _ _, upd_same _ _ _, upd_same _ _ _, upd_same _ _ _, ?_, fun k' hk => upd_ne _ _ hk,
    fun b hb => ⟨upd_ne _ _ hb, upd_ne _ _ hb⟩, ?_⟩
  · simp [getAction, recordAction]
  · intro x hx hne
    unfold recordAction dropAction
    refine List.mem_cons_of_mem _ (List.mem_filter.2 ⟨hx, ?_⟩)
    simp only [ekey, ne_eq, Prod.mk.injEq, not_and] at hne
    simp only [Bool.not_eq_true', Bool.and_eq_false_iff, beq_eq_false_iff_ne]
    by_cases g : x.account = a
    · exact .inr (hne g)
    · exact .inl g

/-- **C148, removals.** In every history root's request to remove a validator is accepted exactly if more than the minimum number of
validators are left, the account is one of them, no change is under way, its key decompresses and the bridge takes the request. -/
theorem C148_removal_accepted_iff (minV : Nat) (vs : List (Nat × Nat)) (h : GoodGenesis minV vs) (xs : List Step) (a : Nat)
    (keyOk bridgeOk : Bool) :
    (removeValidator minV (run minV (genesis vs) xs) a keyOk bridgeOk).2 = none ↔
      minV < (run minV (genesis vs) xs).validators.length ∧ a ∈ (run minV (genesis vs) xs).validators ∧
        ¬ ChangeOpen (run minV (genesis vs) xs) ∧ keyOk = true ∧ bridgeOk = true := by
  have hk := (C54_bijection minV vs h xs).2 a
  generalize run minV (genesis vs) xs = s at *
  rw [← hasActive_iff]
  unfold removeValidator
  constructor
  · intro h
    split at h
    · cases h
    · split at h
      · cases h
      · split at h
        · cases h
        · split at h
          · cases h
          · repeat' split at h
            all_goals first | (cases h; done) | skip
            rename_i h1 h2 h3 _ k hr h4 h5
            exact ⟨by omega, by simpa using h2, h3, by simpa using h4, by simpa using h5⟩
  · rintro ⟨h1, h2, h3, h4, h5⟩
    obtain ⟨k, hr⟩ := hk h2
    rw [if_neg (by omega), if_neg (by simpa using h2), if_neg h3, hr]
    dsimp only
    rw [if_neg (by simp [h4]), if_neg (by simp [h5])]

/-- **C148, what an accepted removal does.** It hands one request for that account to the bridge and opens one change; the account
stays a validator with its key until Ethereum has answered. -/
theorem C148_removal_effect (minV : Nat) (s : State) (a : Nat) (ko bo : Bool) (h : (removeValidator minV s a ko bo).2 = none) :
    let s' := step minV s (.remove a ko bo)
    s'.validators = s.validators ∧ s'.keys = s.keys ∧ s'.rev = s.rev ∧ s'.deposits = s.deposits ∧
      s'.log = s.log ++ [.published s.nextTx .resignation a] ∧ s'.txMap s.nextTx = some (a, s.ingress + 1) ∧
      getAction s' a (s.ingress + 1) = some ⟨a, s.ingress + 1, .awaiting, s.nextTx, .resignation⟩ := by
  have e : step minV s (.remove a ko bo) = recordAction s a .resignation := by
    show commit s (removeValidator minV s a ko bo) = _
    unfold removeValidator at h ⊢
    split at h
    · cases h
    · rename_i h1
      rw [if_neg h1]
      split at h
      · cases h
      · rename_i h2
        rw [if_neg h2]
        split at h
        · cases h
        · rename_i h3
          rw [if_neg h3]
          split at h
          · cases h
          · rename_i k hk
            split at h
            · cases h
            · rename_i h4
              rw [if_neg h4]
              split at h
              · cases h
              · rename_i h5
                rw [if_neg h5]; rfl
  rw [e]
  exact ⟨rfl, rfl, rfl, rfl, rfl, upd_same _ _ _, by simp [getAction, recordAction]⟩

/-- **C148, rotations.** Root's request to replace a validator's Ethereum key is accepted exactly if the old key is the account's and the
new one is nobody's; the account then has the new key, the old one is free, and nothing else changes. -/
theorem C148_rotation (minV : Nat) (s : State) (a old new : Nat) :
    ((rotateKey s a old new).2 = none ↔ s.keys old = some a ∧ s.keys new = none) ∧
      ((rotateKey s a old new).2 = none → step minV s (.rotate a old new) =
        { s with keys := fun k => if k = new then some a else if k = old then none else s.keys k,
                 rev := fun b => if b = a then some new else s.rev b }) := by
  constructor
  · unfold rotateKey
    constructor
    · intro h
      split at h
      · cases h
      · split at h
        · cases h
        · split at h
          · cases h
          · split at h
            · cases h
            · rename_i h1 h2 _ b hb h3
              refine ⟨?_, by simpa using h1⟩
              rw [hb]; simp at h3; rw [h3]
    · rintro ⟨h1, h2⟩
      have hne : old ≠ new := by rintro rfl; rw [h1] at h2; cases h2
      rw [if_neg (by simp [h2]), if_neg hne, h1]
      dsimp only
      rw [if_neg (by simp)]
  · intro h
    show commit s (rotateKey s a old new) = _
    unfold rotateKey at h ⊢
    split at h
    · cases h
    · rename_i h1
      rw [if_neg h1]
      split at h
      · cases h
      · rename_i h2
        rw [if_neg h2]
        split at h
        · cases h
        · rename_i b hb
          split at h
          · cases h
          · rename_i h3
            rw [if_neg h3]
            have h3 : b = a := by simpa using h3
            subst h3
            rfl

/-! ### Examples -/

/-- An accepted addition, an accepted removal after it completed and was cleared, and an accepted rotation. -/
example : (addCollator (genesis gen3) 4 104 1000 true true true true).2 = none ∧
    (removeValidator 2 (run 2 (genesis gen3) [.add 4 104 1000 true true true true, .bridgeResult 0 true true true,
      .session [1, 2, 3, 4] [] (fun _ => true) [(4, 1)], .session [1, 2, 3, 4] [] (fun _ => true) [(4, 1)]]) 4 true true).2 = none ∧
    (rotateKey (genesis gen3) 2 102 202).2 = none := by decide +kernel
/-- Refused: while the addition is under way; at the minimum. -/
example : (removeValidator 2 (run 2 (genesis gen3) [.add 4 104 1000 true true true true]) 1 true true).2 = some .actionInProgress ∧
    (removeValidator 3 (genesis gen3) 1 true true).2 = some .minimumReached := by decide +kernel

end Verif.Validators
