import Verif.Props.Fees

/-!
# C157: terms for known senders

Exactly which terms can be given to a known sender, what the call stores, and what the next transaction of that sender costs.
-/

namespace Verif.Fees

/-! ### Specification -/

/-- Terms the call takes for account `a`. Permanent terms: a fixed fee that is not zero, or a percentage from 1 to 100. Terms for a time
or for a number of transactions: any fee or percentage whatever; a time may not be zero, a number may, if the account has sent
transactions before. -/
def TermsTaken (s : State) (a : Acct) (t : FeeType) : AdjustmentType → Prop
  | .none => (∃ f, t = .fixed f ∧ f ≠ 0) ∨ ∃ p, t = .percentage p ∧ 1 ≤ p ∧ p ≤ 100
  | .timeBased d => t ≠ .none ∧ d ≠ 0
  | .transactionBased n => t ≠ .none ∧ (s.nonce a ≠ 0 ∨ n ≠ 0)

/-- The terms apply to a transaction of `a` in the given block and with the given nonce, when they were given in state `s`. -/
def Running (s : State) (a : Acct) (block nonce : Nat) : AdjustmentType → Prop
  | .none => True
  | .timeBased d => block < satAdd32 s.block d
  | .transactionBased n => nonce ≤ satAdd32 (s.nonce a) n

/-- What is to be paid (without tip) instead of `original` under the terms. -/
def termsFee (original : Nat) : FeeType → Nat
  | .fixed f => f
  | .percentage p => original - perbillMul (perbillFromPercent p) original
  | .none => original

/-! ### Properties -/

private theorem valid_iff (s : State) (a : Acct) (t : FeeType) (j : AdjustmentType) :
    isValid (mkConfig s a t j) = true ↔ TermsTaken s a t j := by
  have hsat : ∀ x d, satAdd32 x d = 0 ↔ x = 0 ∧ d = 0 := by
    intro x d
    unfold satAdd32 pow32
    by_cases h : x + d < 4294967296
    · rw [if_pos h]; omega
    · rw [if_neg h]; omega
  cases j with
  | none =>
    cases t with
    | fixed f => simp [mkConfig, isValid, TermsTaken]
    | percentage p => simp [mkConfig, isValid, TermsTaken]; omega
    | none => simp [mkConfig, isValid, TermsTaken]
  | timeBased d =>
    by_cases hd : d = 0
    · subst hd; simp [mkConfig, isValid, TermsTaken]
    · have h0 : satAdd32 s.block d ≠ 0 := fun e => hd ((hsat _ _).1 e).2
      simp [mkConfig, isValid, TermsTaken, hd, h0]
  | transactionBased n =>
    have : satAdd32 (s.nonce a) n ≠ 0 ↔ (s.nonce a ≠ 0 ∨ n ≠ 0) := by
      rw [Ne, hsat]; omega
    simp only [mkConfig, isValid, TermsTaken, Bool.and_eq_true, bne_iff_ne]
    rw [this]
    exact And.comm

/-- C157: the call takes effect exactly for terms it takes: others leave the state as it is. -/
theorem C157_terms_taken_iff (s : State) (a : Acct) (t : FeeType) (j : AdjustmentType) :
    (TermsTaken s a t j → ∃ c, isValid c = true ∧ (admin s (.set a t j)).known a = some c) ∧
    (¬ TermsTaken s a t j → admin s (.set a t j) = s) ∧
    (∀ b, b ≠ a → (admin s (.set a t j)).known b = s.known b) ∧
    ((admin s (.set a t j)).bal = s.bal ∧ (admin s (.set a t j)).nonce = s.nonce ∧ (admin s (.set a t j)).block = s.block) := by
  have h := valid_iff s a t j
  unfold admin
  dsimp only
  by_cases hv : isValid (mkConfig s a t j) = true
  · rw [if_pos hv]
    exact ⟨fun _ => ⟨_, hv, upd_same _ _ _⟩, fun e => absurd (h.1 hv) e, fun b hb => by dsimp only [upd]; rw [if_neg hb], rfl, rfl, rfl⟩
  · rw [if_neg hv]
    exact ⟨fun e => absurd (h.2 e) hv, fun _ => rfl, fun _ _ => rfl, rfl, rfl, rfl⟩

/-- C157: a sender that is known is removed, and pays the ordinary fee from then on; removing one that is not changes nothing. -/
theorem C157_removed (s : State) (a : Acct) (paid corrected tip : Nat) :
    (admin s (.remove a)).known a = none ∧ (∀ b, b ≠ a → (admin s (.remove a)).known b = s.known b) ∧
    refundAmount (admin s (.remove a)) a paid corrected tip = (false, paid - corrected) ∧
    (s.known a = none → admin s (.remove a) = s) := by
  unfold admin
  dsimp only
  cases hk : s.known a with
  | none =>
    rw [if_neg (by simp)]
    refine ⟨hk, fun _ _ => rfl, ?_, fun _ => rfl⟩
    unfold refundAmount; rw [hk]; rfl
  | some c =>
    rw [if_pos (by simp)]
    refine ⟨upd_same _ _ _, fun b hb => by dsimp only [upd]; rw [if_neg hb], ?_, fun e => by cases e⟩
    unfold refundAmount
    dsimp only
    rw [upd_same]; rfl

/-- C157: what a transaction of the sender costs once terms were taken: what the terms say (plus the tip) while they run and if that is
not more than what was withdrawn, the ordinary fee afterwards. -/
theorem C157_cost (s : State) (a : Acct) (t : FeeType) (j : AdjustmentType) (h : TermsTaken s a t j) (block nonce : Nat)
    (s' : State) (hs : s' = { admin s (.set a t j) with block := block, nonce := upd s.nonce a nonce })
    (paid corrected tip : Nat) :
    (Running s a block nonce j → refundAmount s' a paid corrected tip = (true, paid - satAdd128 (termsFee (corrected - tip) t) tip)) ∧
    (¬ Running s a block nonce j → refundAmount s' a paid corrected tip = (false, paid - corrected)) := by
  have hv := (valid_iff s a t j).2 h
  have hk : s'.known a = some (mkConfig s a t j) := by
    rw [hs]; unfold admin; dsimp only; rw [if_pos hv]; exact upd_same _ _ _
  have hb : s'.block = block := by rw [hs]
  have hn : s'.nonce a = nonce := by rw [hs]; exact upd_same _ _ _
  have hundred : perbillMul (perbillFromPercent 100) (corrected - tip) = corrected - tip := by
    have e : perbillFromPercent 100 = 1000000000 := by decide
    rw [e]; unfold perbillMul divNearestDown billion; rw [Nat.mul_div_cancel_left _ (by decide), Nat.mul_mod_right, if_neg (by decide), Nat.add_zero]
  unfold refundAmount
  rw [hk]
  dsimp only [Option.getD_some]
  cases j with
  | none =>
    refine ⟨fun _ => ?_, fun e => absurd trivial e⟩
    rcases h with ⟨f, rfl, hf⟩ | ⟨p, rfl, hp1, hp2⟩
    · rfl
    · show (true, paid - (match (if p = 100 then some 0 else _) with | some fee => satAdd128 fee tip | none => corrected)) = _
      by_cases hp : p = 100
      · rw [if_pos hp]; subst hp; dsimp only [termsFee]; rw [hundred, Nat.sub_self]
      · rw [if_neg hp]; rfl
  | timeBased d =>
    obtain ⟨ht, hd⟩ := h
    simp only [mkConfig, if_neg hd, isActive, hb, Running, getFee]
    constructor
    · intro hr
      simp only [hr, decide_true, if_true]
      cases t with
      | none => exact absurd rfl ht
      | fixed f => rfl
      | percentage p => rfl
    · intro hr
      simp only [hr, decide_false]
      rfl
  | transactionBased n =>
    obtain ⟨ht, _⟩ := h
    simp only [mkConfig, isActive, hn, Running, getFee]
    constructor
    · intro hr
      simp only [hr, decide_true, if_true]
      cases t with
      | none => exact absurd rfl ht
      | fixed f => rfl
      | percentage p => rfl
    · intro hr
      simp only [hr, decide_false]
      rfl

/-- C157: temporary terms are not checked: a permanent fee of nothing is refused, but for a time it is taken, and all transactions of the
sender in that time are free; the same with a percentage above 100. -/
theorem C157_temporary_terms_are_not_checked (s : State) (a : Acct) (d : Nat) (hd : d ≠ 0) (p : Nat) :
    admin s (.set a (.fixed 0) .none) = s ∧ TermsTaken s a (.fixed 0) (.timeBased d) ∧
    TermsTaken s a (.percentage p) (.timeBased d) ∧
    ∀ block s', s' = { admin s (.set a (.fixed 0) (.timeBased d)) with block := block } → block < satAdd32 s.block d →
      ∀ paid corrected, refundAmount s' a paid corrected 0 = (true, paid) := by
  have h1 : TermsTaken s a (.fixed 0) (.timeBased d) := ⟨by simp, hd⟩
  refine ⟨(C157_terms_taken_iff s a (.fixed 0) .none).2.1 (by simp [TermsTaken]), h1, ⟨by simp, hd⟩, ?_⟩
  intro block s' hs hb paid corrected
  have e : s' = { admin s (.set a (.fixed 0) (.timeBased d)) with block := block, nonce := upd s.nonce a (s.nonce a) } := by
    rw [hs]
    have : upd s.nonce a (s.nonce a) = (admin s (.set a (.fixed 0) (.timeBased d))).nonce := by
      rw [(C157_terms_taken_iff s a _ _).2.2.2.2.1]
      funext x; dsimp only [upd]; by_cases h : x = a
      · rw [if_pos h, h]
      · rw [if_neg h]
    rw [this]
  have := (C157_cost s a (.fixed 0) (.timeBased d) h1 block (s.nonce a) s' e paid corrected 0).1 hb
  rw [this]
  rfl

/-! ### The hypotheses are met -/

example : ((admin exS (.set exA (.percentage 100) .none)).known exA).isSome = true ∧
    ((admin exS (.set exA (.percentage 101) .none)).known exA).isSome = false ∧
    ((admin exS (.set exA (.fixed 5) (.transactionBased 0))).known exA).isSome = true ∧
    ((admin { exS with nonce := fun _ => 0 } (.set exA (.fixed 5) (.transactionBased 0))).known exA).isSome = false ∧
    ((admin exS (.set exA (.fixed 5) (.timeBased 0))).known exA).isSome = false := by decide +kernel

example : refundAmount (admin exS (.set exA (.fixed 5) (.timeBased 2))) exA 20 18 1 = (true, 14) ∧
    refundAmount { admin exS (.set exA (.fixed 5) (.timeBased 2)) with block := 9 } exA 20 18 1 = (false, 2) := by decide +kernel

end Verif.Fees
