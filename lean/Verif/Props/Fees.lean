import Verif.Model.Fees
import Mathlib.Data.List.Induction

/-!
# C65, C66, C67: transaction fees and their adjustments
-/

namespace Verif.Fees

/-! ## Specification -/

/-- `x` reduced by `p` percent, the discount rounded to the nearest integer (ties down); from 100 percent on, nothing is left. -/
def discounted (p x : Nat) : Nat := if 100 ≤ p then 0 else x - (p * x / 100 + if 50 < p * x % 100 then 1 else 0)

/-- What a transaction should cost: the tip, plus the network fee as adjusted. `corrected` includes the tip. -/
def due (adjustment : Option FeeType) (corrected tip : Nat) : Nat :=
  match adjustment with
  | some (.fixed f) => f + tip
  | some (.percentage p) => discounted p (corrected - tip) + tip
  | _ => corrected

/-- The adjustment that applies to a sender now. -/
def applies (s : State) (a : Acct) : Option FeeType :=
  match s.known a with
  | some (.fixed f) => some (.fixed f)
  | some (.percentage p) => some (.percentage p)
  | some (.timeBased t e) => if s.block < e then some t else none
  | some (.transactionBased t b e) => if s.nonce b ≤ e then some t else none
  | _ => none

/-- The state when the fee of a transaction comes to be corrected: nonce incremented, fee withdrawn, call dispatched. -/
def afterDispatch (s : State) (who : Acct) (b : Balances) (dispatch : Balances → Balances) (inner : Option Admin) : State :=
  (inner.map (admin { s with nonce := upd s.nonce who (s.nonce who + 1), bal := dispatch b })).getD
    { s with nonce := upd s.nonce who (s.nonce who + 1), bal := dispatch b }

/-! ## Arithmetic -/

theorem perbill_percent (p x : Nat) (hp : p ≤ 100) :
    perbillMul (perbillFromPercent p) x = p * x / 100 + if 50 < p * x % 100 then 1 else 0 := by
  have e : min p 100 * 10000000 * x = p * x * 10000000 := by
    rw [Nat.min_eq_left hp, Nat.mul_right_comm]
  have h1 : p * x * 10000000 / 1000000000 = p * x / 100 := by omega
  have h2 : p * x * 10000000 % 1000000000 = (p * x % 100) * 10000000 := by omega
  unfold perbillMul divNearestDown perbillFromPercent billion
  rw [e, h1, h2]
  congr 1
  by_cases h : 50 < p * x % 100
  · rw [if_pos h, if_pos (by omega)]
  · rw [if_neg h, if_neg (by omega)]

theorem perbill_over (p x : Nat) (hp : 100 ≤ p) : x - perbillMul (perbillFromPercent p) x = 0 := by
  unfold perbillMul divNearestDown perbillFromPercent billion
  rw [Nat.min_eq_right hp]
  have : 100 * 10000000 * x / 1000000000 = x := by omega
  rw [this]; omega

/-- The specification's discount is what the code computes. -/
theorem discount_eq (p x : Nat) : x - perbillMul (perbillFromPercent p) x = discounted p x := by
  unfold discounted
  by_cases h : 100 ≤ p
  · rw [if_pos h, perbill_over p x h]
  · rw [if_neg h, perbill_percent p x (by omega)]

theorem discounted_le (p x : Nat) : discounted p x ≤ x := by
  unfold discounted; split <;> omega

/-- The discounted fee is within half a unit of `(100 - p)%` of the fee. -/
theorem C65_discount_accurate (p x : Nat) (hp : p ≤ 100) :
    100 * discounted p x ≤ (100 - p) * x + 50 ∧ (100 - p) * x ≤ 100 * discounted p x + 50 := by
  unfold discounted
  have hs : (100 - p) * x + p * x = 100 * x := by rw [← Nat.add_mul]; congr 1; omega
  have hle : p * x ≤ 100 * x := Nat.mul_le_mul_right x hp
  by_cases h : 100 ≤ p
  · have : p = 100 := by omega
    subst this
    simp
  · rw [if_neg h]
    by_cases h2 : 50 < p * x % 100
    · rw [if_pos h2]; omega
    · rw [if_neg h2]; omega

/-! ## C65 -/

theorem refund_due (s : State) (who : Acct) (paid corrected tip : Nat) (hp : paid < 2 ^ 128) :
    refundAmount s who paid corrected tip =
      ((applies s who).isSome, paid - due (applies s who) corrected tip) := by
  have sat : ∀ f : Nat, paid - satAdd128 f tip = paid - (f + tip) := by
    intro f
    unfold satAdd128 pow128
    split <;> omega
  unfold refundAmount applies
  cases hk : s.known who with
  | none => simp [isActive, due]
  | some c =>
    cases c with
    | fixed f => simp [isActive, getFee, due, sat]
    | percentage p =>
      by_cases h : p = 100
      · subst h; simp [isActive, getFee, due, sat, discounted]
      · simp [isActive, getFee, h, due, sat, discount_eq]
    | timeBased t e =>
      by_cases h : s.block < e
      · cases t <;> simp [isActive, h, getFee, calculateFee, due, sat, discount_eq]
      · cases t <;> simp [isActive, h, due]
    | transactionBased t b e =>
      by_cases h : s.nonce b ≤ e
      · cases t <;> simp [isActive, h, getFee, calculateFee, due, sat, discount_eq]
      · cases t <;> simp [isActive, h, due]
    | none => simp [isActive, due]

/-- C65: what a fee-paying transaction costs. If the fee could be withdrawn, it is split without loss into a refund, returned to
the payer, and the part kept, put into the staking pot. The part kept is the amount due, or all that was withdrawn if
that is less or if the transaction left the payer without any balance. -/
theorem C65_charge_exact (pot : Acct) (s : State) (who : Acct) (ok : Bool) (fee corrected tip : Nat)
    (dispatch : Balances → Balances) (inner : Option Admin) (h0 : fee ≠ 0) (h1 : fee < 2 ^ 128) (b : Balances)
    (hw : withdrawFee ok s.bal who fee = some b) :
    ∃ refund kept, refund + kept = fee ∧
      kept = (if (afterDispatch s who b dispatch inner).bal.free who + (afterDispatch s who b dispatch inner).bal.reserved who = 0
        then fee else min fee (due (applies (afterDispatch s who b dispatch inner) who) corrected tip)) ∧
      (step pot s (.tx who ok fee corrected tip dispatch inner)).log = s.log ++
        [⟨who, s.block, fee, corrected, tip, refund, kept, (applies (afterDispatch s who b dispatch inner) who).isSome⟩] ∧
      ∀ a, (step pot s (.tx who ok fee corrected tip dispatch inner)).bal.free a =
        (afterDispatch s who b dispatch inner).bal.free a + (if a = who then refund else 0) + (if a = pot then kept else 0) := by
  have hlog : (afterDispatch s who b dispatch inner).log = s.log := by
    cases inner with
    | none => rfl
    | some ad =>
      cases ad with
      | set x t j => simp only [afterDispatch, Option.map_some, Option.getD_some, admin]; split <;> rfl
      | remove x => simp only [afterDispatch, Option.map_some, Option.getD_some, admin]; split <;> rfl
  have hblock : (afterDispatch s who b dispatch inner).block = s.block := by
    cases inner with
    | none => rfl
    | some ad =>
      cases ad with
      | set x t j => simp only [afterDispatch, Option.map_some, Option.getD_some, admin]; split <;> rfl
      | remove x => simp only [afterDispatch, Option.map_some, Option.getD_some, admin]; split <;> rfl
  have hstep : step pot s (.tx who ok fee corrected tip dispatch inner) =
      correctAndDeposit pot (afterDispatch s who b dispatch inner) who fee corrected tip := by
    simp only [step, if_neg h0, hw, afterDispatch]
  rw [hstep]
  generalize afterDispatch s who b dispatch inner = s2 at hlog hblock
  simp only [correctAndDeposit, refund_due s2 who fee corrected tip h1, hlog, hblock]
  set d := due (applies s2 who) corrected tip with hd
  by_cases ht : 0 < fee - d ∧ 0 < s2.bal.free who + s2.bal.reserved who
  · rw [if_pos ht]
    refine ⟨fee - d, fee - (fee - d), by omega, ?_, rfl, ?_⟩
    · rw [if_neg (by omega)]; omega
    · intro a
      by_cases ha : a = who <;> by_cases hb : a = pot <;> simp [upd, ha, hb] <;> simp_all
  · rw [if_neg ht]
    refine ⟨0, fee, by omega, ?_, rfl, ?_⟩
    · split
      · rfl
      · omega
    · intro a
      by_cases ha : a = who <;> by_cases hb : a = pot <;> simp [upd, ha, hb] <;> simp_all

/-- C65: a transaction whose fee exceeds the payer's free balance, or whose payer's balance is locked, is not executed at all: no
dispatch, no charge, no nonce. Otherwise the fee is taken from the payer's free balance in full before the dispatch. -/
theorem C65_fee_needs_funds (pot : Acct) (s : State) (who : Acct) (ok : Bool) (fee corrected tip : Nat)
    (dispatch : Balances → Balances) (inner : Option Admin) (h0 : fee ≠ 0) :
    ((s.bal.free who < fee ∨ ok = false) → step pot s (.tx who ok fee corrected tip dispatch inner) = s) ∧
    (fee ≤ s.bal.free who → ok = true →
      (step pot s (.tx who ok fee corrected tip dispatch inner)).nonce who = s.nonce who + 1 ∧
      withdrawFee ok s.bal who fee = some { s.bal with free := fun a => if a = who then s.bal.free who - fee else s.bal.free a }) := by
  constructor
  · intro h
    simp only [step, if_neg h0]
    have : withdrawFee ok s.bal who fee = none := by
      unfold withdrawFee
      rw [if_neg]
      rintro ⟨h1, h2⟩
      rcases h with h | h
      · omega
      · rw [h] at h1; cases h1
    rw [this]
  · intro h1 h2
    have hw : withdrawFee ok s.bal who fee = some { s.bal with free := upd s.bal.free who (s.bal.free who - fee) } := by
      unfold withdrawFee
      rw [if_pos ⟨h2, h1⟩]
    refine ⟨?_, ?_⟩
    · simp only [step, if_neg h0]
      rw [hw]
      cases inner with
      | none => simp [correctAndDeposit]
      | some a =>
        cases a with
        | set x t j =>
          simp only [Option.map_some, Option.getD_some, admin]
          split <;> simp [correctAndDeposit]
        | remove x =>
          simp only [Option.map_some, Option.getD_some, admin]
          split <;> simp [correctAndDeposit]
    · rw [hw]
      congr 2

/-- What C65 says of one charge. -/
def Fair (c : Charge) : Prop :=
  c.refund + c.kept = c.withdrawn ∧ (c.tip ≤ c.corrected → min c.tip c.withdrawn ≤ c.kept) ∧
  (c.adjusted = false → c.kept = min c.corrected c.withdrawn ∨ c.refund = 0)

theorem step_log (pot : Acct) (s : State) (x : Step) :
    (step pot s x).log = s.log ∨ ∃ c, (step pot s x).log = s.log ++ [c] := by
  cases x with
  | admin a =>
    left
    cases a with
    | set x t j => simp only [step, admin]; split <;> rfl
    | remove x => simp only [step, admin]; split <;> rfl
  | block => exact Or.inl rfl
  | tx who ok fee corrected tip dispatch inner =>
    by_cases h0 : fee = 0
    · right
      refine ⟨⟨who, s.block, 0, corrected, tip, 0, 0, false⟩, ?_⟩
      simp only [step, if_pos h0]
      cases inner with
      | none => rfl
      | some ad =>
        cases ad with
        | set x t j => simp only [Option.map_some, Option.getD_some, admin]; split <;> rfl
        | remove x => simp only [Option.map_some, Option.getD_some, admin]; split <;> rfl
    · cases hw : withdrawFee ok s.bal who fee with
      | none => left; simp only [step, if_neg h0, hw]
      | some b =>
        right
        simp only [step, if_neg h0, hw, correctAndDeposit]
        cases inner with
        | none => exact ⟨_, rfl⟩
        | some ad =>
          cases ad with
          | set x t j =>
            simp only [Option.map_some, Option.getD_some, admin]; split <;> exact ⟨_, rfl⟩
          | remove x => simp only [Option.map_some, Option.getD_some, admin]; split <;> exact ⟨_, rfl⟩

/-- The amounts of a step fit the balance type. -/
def InRange : Step → Prop
  | .tx _ _ fee _ _ _ _ => fee < 2 ^ 128
  | _ => True

theorem due_ge_tip (j : Option FeeType) (corrected tip : Nat) (h : tip ≤ corrected) : tip ≤ due j corrected tip := by
  unfold due; split <;> omega

/-- C65, in every history: no charge ever keeps more than was withdrawn, none loses the tip, none leaves money unaccounted for;
and without an active adjustment the corrected fee is kept, unless the payer has no balance left to refund to. -/
theorem C65_charges_fair (pot : Acct) (nonce : Acct → Nat) (block : Nat) (bal : Balances) (steps : List Step)
    (hr : ∀ x ∈ steps, InRange x) : ∀ c ∈ (runFrom pot (init nonce block bal) steps).log, Fair c ∧ c.kept ≤ c.withdrawn := by
  suffices h : ∀ c ∈ (runFrom pot (init nonce block bal) steps).log, Fair c from
    fun c hc => ⟨h c hc, by have := (h c hc).1; omega⟩
  induction steps using List.reverseRecOn with
  | nil => simp [runFrom, init]
  | append_singleton l x ih =>
    have ih' := ih (fun y hy => hr y (by simp [hy]))
    have hx := hr x (by simp)
    have he : runFrom pot (init nonce block bal) (l ++ [x]) = step pot (runFrom pot (init nonce block bal) l) x := by
      simp [runFrom]
    rw [he]
    generalize runFrom pot (init nonce block bal) l = s at ih'
    intro c hc
    cases x with
    | admin a =>
      refine ih' c ?_
      cases a with
      | set y t j => simp only [step, admin] at hc; split at hc <;> exact hc
      | remove y => simp only [step, admin] at hc; split at hc <;> exact hc
    | block => exact ih' c hc
    | tx who ok fee corrected tip dispatch inner =>
      by_cases h0 : fee = 0
      · have : (step pot s (.tx who ok fee corrected tip dispatch inner)).log =
            s.log ++ [⟨who, s.block, 0, corrected, tip, 0, 0, false⟩] := by
          simp only [step, if_pos h0]
          cases inner with
          | none => rfl
          | some ad =>
            cases ad with
            | set x t j => simp only [Option.map_some, Option.getD_some, admin]; split <;> rfl
            | remove x => simp only [Option.map_some, Option.getD_some, admin]; split <;> rfl
        rw [this] at hc
        rcases List.mem_append.mp hc with hc | hc
        · exact ih' c hc
        · simp only [List.mem_cons, List.not_mem_nil, or_false] at hc
          subst hc
          exact ⟨rfl, fun _ => by simp, fun _ => Or.inr rfl⟩
      · cases hw : withdrawFee ok s.bal who fee with
        | none => simp only [step, if_neg h0, hw] at hc; exact ih' c hc
        | some b =>
          obtain ⟨refund, kept, e1, e2, e3, -⟩ := C65_charge_exact pot s who ok fee corrected tip dispatch inner h0 hx b hw
          rw [e3] at hc
          rcases List.mem_append.mp hc with hc | hc
          · exact ih' c hc
          · simp only [List.mem_cons, List.not_mem_nil, or_false] at hc
            subst hc
            refine ⟨e1, ?_, ?_⟩
            · intro ht
              have := due_ge_tip (applies (afterDispatch s who b dispatch inner) who) corrected tip ht
              dsimp only at ht ⊢
              rw [e2]
              split <;> omega
            · intro hadj
              have hn : applies (afterDispatch s who b dispatch inner) who = none := by simpa using hadj
              dsimp only
              rw [hn] at e2
              split at e2
              · right; omega
              · left; rw [e2]; simp only [due]; omega

/-! ## C66 -/

/-- Whether a step changes the configuration of `a`. -/
def Touches (a : Acct) : Step → Prop
  | .admin (.set b _ _) => b = a
  | .admin (.remove b) => b = a
  | .tx _ _ _ _ _ _ (some (.set b _ _)) => b = a
  | .tx _ _ _ _ _ _ (some (.remove b)) => b = a
  | _ => False

/-- The transactions of `a` on a log. -/
def txsOf (a : Acct) (l : List Charge) : List Charge := l.filter (fun c => c.who = a)

/-- What one step does to `a`, when it leaves `a`'s configuration alone: nothing, a new block, or one signed transaction. -/
inductive Move (a : Acct) (s s' : State) : Prop
  | quiet (hk : s'.known a = s.known a) (hn : s'.nonce a = s.nonce a) (hb : s'.block = s.block) (hl : txsOf a s'.log = txsOf a s.log)
  | block (hk : s'.known a = s.known a) (hn : s'.nonce a = s.nonce a) (hb : s'.block = s.block + 1) (hl : txsOf a s'.log = txsOf a s.log)
  | tx (c : Charge) (hk : s'.known a = s.known a) (hn : s'.nonce a = s.nonce a + 1) (hb : s'.block = s.block)
      (hl : txsOf a s'.log = txsOf a s.log ++ [c]) (hc : c.block = s.block)
      (hadj : c.adjusted = true ↔ c.withdrawn ≠ 0 ∧ (applies { s with nonce := upd s.nonce a (s.nonce a + 1) } a).isSome = true)

theorem admin_frame (a : Acct) (s : State) (d : Admin) (h : (∃ t j, d = .set a t j) ∨ d = .remove a → False) :
    (admin s d).known a = s.known a ∧ (admin s d).nonce = s.nonce ∧ (admin s d).block = s.block ∧ (admin s d).log = s.log := by
  cases d with
  | set b t j =>
    have hb : a ≠ b := fun e => h (Or.inl ⟨t, j, by rw [e]⟩)
    simp only [admin]
    split
    · exact ⟨upd_ne _ _ hb, rfl, rfl, rfl⟩
    · exact ⟨rfl, rfl, rfl, rfl⟩
  | remove b =>
    have hb : a ≠ b := fun e => h (Or.inr (by rw [e]))
    simp only [admin]
    split
    · exact ⟨upd_ne _ _ hb, rfl, rfl, rfl⟩
    · exact ⟨rfl, rfl, rfl, rfl⟩

theorem after_frame (a : Acct) (s : State) (who : Acct) (b : Balances) (dispatch : Balances → Balances) (inner : Option Admin)
    (h : ∀ d, inner = some d → ((∃ t j, d = .set a t j) ∨ d = .remove a → False)) :
    (afterDispatch s who b dispatch inner).known a = s.known a ∧
    (afterDispatch s who b dispatch inner).nonce = upd s.nonce who (s.nonce who + 1) ∧
    (afterDispatch s who b dispatch inner).block = s.block ∧ (afterDispatch s who b dispatch inner).log = s.log := by
  cases inner with
  | none => exact ⟨rfl, rfl, rfl, rfl⟩
  | some d => exact admin_frame a _ d (h d rfl)

theorem refund_active (s : State) (who : Acct) (paid corrected tip : Nat) :
    (refundAmount s who paid corrected tip).1 = (applies s who).isSome := by
  unfold refundAmount applies
  cases hk : s.known who with
  | none => simp [isActive]
  | some c =>
    cases c with
    | fixed f => simp [isActive]
    | percentage p => simp [isActive]
    | timeBased t e => by_cases h : s.block < e <;> simp [isActive, h]
    | transactionBased t b e => by_cases h : s.nonce b ≤ e <;> simp [isActive, h]
    | none => simp [isActive]

/-- Transaction-count configurations of `a` are about `a` itself. -/
def SelfKeyed (s : State) (a : Acct) : Prop := ∀ t b e, s.known a = some (.transactionBased t b e) → b = a

theorem move (a : Acct) (pot : Acct) (s : State) (x : Step) (h : ¬ Touches a x) (hs : SelfKeyed s a) : Move a s (step pot s x) := by
  have split_log : ∀ (l : List Charge) (c : Charge), txsOf a (l ++ [c]) = txsOf a l ++ (if c.who = a then [c] else []) := by
    intro l c; simp [txsOf, List.filter_append, List.filter_cons]
  cases x with
  | admin d =>
    have := admin_frame a s d (by
      rintro (⟨t, j, rfl⟩ | rfl) <;> simp [Touches] at h)
    exact .quiet this.1 (by rw [show step pot s (.admin d) = admin s d from rfl, this.2.1]) this.2.2.1 (by
      rw [show step pot s (.admin d) = admin s d from rfl, this.2.2.2])
  | block => exact .block rfl rfl rfl rfl
  | tx who ok fee corrected tip dispatch inner =>
    have hin : ∀ d, inner = some d → ((∃ t j, d = .set a t j) ∨ d = .remove a → False) := by
      rintro d rfl (⟨t, j, rfl⟩ | rfl) <;> simp [Touches] at h
    by_cases h0 : fee = 0
    · have hst : step pot s (.tx who ok fee corrected tip dispatch inner) =
          { afterDispatch s who s.bal dispatch inner with
            log := (afterDispatch s who s.bal dispatch inner).log ++ [⟨who, s.block, 0, corrected, tip, 0, 0, false⟩] } := by
        simp only [step, if_pos h0, afterDispatch]
      rw [hst]
      obtain ⟨f1, f2, f3, f4⟩ := after_frame a s who s.bal dispatch inner hin
      by_cases ha : who = a
      · subst ha
        refine .tx ⟨who, s.block, 0, corrected, tip, 0, 0, false⟩ f1 ?_ f3 ?_ rfl (by simp)
        · simp [f2]
        · dsimp only; rw [split_log, f4]; simp
      · refine .quiet f1 ?_ f3 ?_
        · simp [f2, upd, Ne.symm ha]
        · dsimp only; rw [split_log, f4]; simp [ha]
    · cases hw : withdrawFee ok s.bal who fee with
      | none =>
        have hst : step pot s (.tx who ok fee corrected tip dispatch inner) = s := by simp only [step, if_neg h0, hw]
        rw [hst]
        exact .quiet rfl rfl rfl rfl
      | some b =>
        have hst : step pot s (.tx who ok fee corrected tip dispatch inner) =
            correctAndDeposit pot (afterDispatch s who b dispatch inner) who fee corrected tip := by
          simp only [step, if_neg h0, hw, afterDispatch]
        rw [hst]
        obtain ⟨f1, f2, f3, f4⟩ := after_frame a s who b dispatch inner hin
        by_cases ha : who = a
        · subst ha
          refine .tx _ f1 ?_ f3 (by
            simp only [correctAndDeposit]
            rw [split_log, f4, if_pos rfl]) f3 ?_
          · simp [correctAndDeposit, f2]
          · simp only [correctAndDeposit, refund_active]
            have : (applies (afterDispatch s who b dispatch inner) who).isSome =
                (applies { s with nonce := upd s.nonce who (s.nonce who + 1) } who).isSome := by
              unfold applies
              rw [f1, f2, f3]
            rw [this]
            simp [h0]
        · refine .quiet f1 ?_ f3 ?_
          · simp [correctAndDeposit, f2, upd, Ne.symm ha]
          · simp only [correctAndDeposit]; rw [split_log, f4]; simp [ha]

theorem runFrom_snoc (pot : Acct) (s : State) (l : List Step) (x : Step) :
    runFrom pot s (l ++ [x]) = step pot (runFrom pot s l) x := by simp [runFrom]

/-- C66, transaction based: after `set_known_sender` gave `a` an adjustment for `count` transactions, and until its configuration
is changed again, the `i`-th of `a`'s later transactions (from zero; those without a fee count too) is adjusted if
and only if it pays a fee and `i < count`. -/
theorem C66_transaction_based_exact (pot : Acct) (s : State) (a : Acct) (t : FeeType) (count : Nat) (ht : t ≠ .none) (hc : count ≠ 0)
    (hn : s.nonce a + count < 2 ^ 32) (steps : List Step) (h : ∀ x ∈ steps, ¬ Touches a x) :
    ∃ l, txsOf a (runFrom pot s (.admin (.set a t (.transactionBased count)) :: steps)).log = txsOf a s.log ++ l ∧
      ∀ i c, l[i]? = some c → (c.adjusted = true ↔ c.withdrawn ≠ 0 ∧ i < count) := by
  have hset : step pot s (.admin (.set a t (.transactionBased count))) =
      { s with known := upd s.known a (some (.transactionBased t a (s.nonce a + count))) } := by
    have hsat : satAdd32 (s.nonce a) count = s.nonce a + count := if_pos hn
    simp only [step, admin, mkConfig, hsat]
    rw [if_pos]
    simp [isValid, ht, hc]
  have e : runFrom pot s (.admin (.set a t (.transactionBased count)) :: steps) =
      runFrom pot { s with known := upd s.known a (some (.transactionBased t a (s.nonce a + count))) } steps := by
    simp only [runFrom, List.foldl_cons, hset]
  rw [e]
  suffices hh : ∀ s' : State, s' = runFrom pot { s with known := upd s.known a (some (.transactionBased t a (s.nonce a + count))) } steps →
      s'.known a = some (.transactionBased t a (s.nonce a + count)) ∧
      ∃ l, txsOf a s'.log = txsOf a s.log ++ l ∧ s'.nonce a = s.nonce a + l.length ∧
      ∀ i c, l[i]? = some c → (c.adjusted = true ↔ c.withdrawn ≠ 0 ∧ i < count) by
    obtain ⟨-, l, h1, -, h2⟩ := hh _ rfl
    exact ⟨l, h1, h2⟩
  induction steps using List.reverseRecOn with
  | nil =>
    rintro s' rfl
    exact ⟨by simp [runFrom], [], by simp [runFrom], by simp [runFrom], by simp⟩
  | append_singleton ls x ih =>
    rintro s' rfl
    obtain ⟨k, l, h1, h2, h3⟩ := ih (fun y hy => h y (by simp [hy])) (by simp only [runFrom, List.foldl_cons, hset]) _ rfl
    rw [runFrom_snoc]
    generalize runFrom pot { s with known := upd s.known a (some (.transactionBased t a (s.nonce a + count))) } ls = s1 at k h1 h2
    have hm := move a pot s1 x (h x (by simp)) (by
      intro t' b e' hk; rw [k] at hk; cases hk; rfl)
    cases hm with
    | quiet hk hn' hb hl => exact ⟨hk.trans k, l, hl.trans h1, hn'.trans h2, h3⟩
    | block hk hn' hb hl => exact ⟨hk.trans k, l, hl.trans h1, hn'.trans h2, h3⟩
    | tx c hk hn' hb hl hcb hadj =>
      refine ⟨hk.trans k, l ++ [c], by rw [hl, h1, List.append_assoc], by rw [hn', h2]; simp; omega, ?_⟩
      intro i d hd
      rw [List.getElem?_append] at hd
      split at hd
      · exact h3 i d hd
      · rename_i hi
        have hi' : i - l.length = 0 := by
          cases hq : i - l.length with
          | zero => rfl
          | succ m => rw [hq] at hd; simp at hd
        rw [hi'] at hd
        simp only [List.length_cons, List.length_nil, Nat.zero_add, Nat.lt_add_one, List.getElem?_cons_zero, Option.some.injEq] at hd
        subst hd
        rw [hadj]
        have hap : (applies { s1 with nonce := upd s1.nonce a (s1.nonce a + 1) } a).isSome = true ↔ i < count := by
          simp only [applies, k, upd_same, h2]
          have : i = l.length := by omega
          subst this
          split
          · simp; omega
          · simp; omega
        rw [hap]

/-- C66, time based: after `set_known_sender` in block `b` gave `a` an adjustment lasting `duration` blocks, and until its
configuration is changed again, a later transaction of `a` is adjusted if and only if it pays a fee in a block before `b + duration`. -/
theorem C66_time_based_exact (pot : Acct) (s : State) (a : Acct) (t : FeeType) (duration : Nat) (ht : t ≠ .none) (hd : duration ≠ 0)
    (hn : s.block + duration < 2 ^ 32) (steps : List Step) (h : ∀ x ∈ steps, ¬ Touches a x) :
    ∃ l, txsOf a (runFrom pot s (.admin (.set a t (.timeBased duration)) :: steps)).log = txsOf a s.log ++ l ∧
      ∀ c ∈ l, (c.adjusted = true ↔ c.withdrawn ≠ 0 ∧ c.block < s.block + duration) := by
  have hset : step pot s (.admin (.set a t (.timeBased duration))) =
      { s with known := upd s.known a (some (.timeBased t (s.block + duration))) } := by
    have hsat : satAdd32 s.block duration = s.block + duration := if_pos hn
    simp only [step, admin, mkConfig, hsat, if_neg hd]
    rw [if_pos]
    simp [isValid, ht, hd]
  have e : runFrom pot s (.admin (.set a t (.timeBased duration)) :: steps) =
      runFrom pot { s with known := upd s.known a (some (.timeBased t (s.block + duration))) } steps := by
    simp only [runFrom, List.foldl_cons, hset]
  rw [e]
  suffices hh : ∀ s' : State, s' = runFrom pot { s with known := upd s.known a (some (.timeBased t (s.block + duration))) } steps →
      s'.known a = some (.timeBased t (s.block + duration)) ∧
      ∃ l, txsOf a s'.log = txsOf a s.log ++ l ∧
      ∀ c ∈ l, (c.adjusted = true ↔ c.withdrawn ≠ 0 ∧ c.block < s.block + duration) by
    obtain ⟨-, l, h1, h2⟩ := hh _ rfl
    exact ⟨l, h1, h2⟩
  induction steps using List.reverseRecOn with
  | nil =>
    rintro s' rfl
    exact ⟨by simp [runFrom], [], by simp [runFrom], by simp⟩
  | append_singleton ls x ih =>
    rintro s' rfl
    obtain ⟨k, l, h1, h3⟩ := ih (fun y hy => h y (by simp [hy])) (by simp only [runFrom, List.foldl_cons, hset]) _ rfl
    rw [runFrom_snoc]
    generalize runFrom pot { s with known := upd s.known a (some (.timeBased t (s.block + duration))) } ls = s1 at k h1
    have hm := move a pot s1 x (h x (by simp)) (by intro t' b e' hk; rw [k] at hk; cases hk)
    cases hm with
    | quiet hk hn' hb hl => exact ⟨hk.trans k, l, hl.trans h1, h3⟩
    | block hk hn' hb hl => exact ⟨hk.trans k, l, hl.trans h1, h3⟩
    | tx c hk hn' hb hl hcb hadj =>
      refine ⟨hk.trans k, l ++ [c], by rw [hl, h1, List.append_assoc], ?_⟩
      intro d hdm
      rcases List.mem_append.mp hdm with hdm | hdm
      · exact h3 d hdm
      · simp only [List.mem_cons, List.not_mem_nil, or_false] at hdm
        subst hdm
        rw [hadj, hcb]
        simp only [applies, k]
        split
        · rename_i hlt; simp [hlt]
        · rename_i hlt; simp [hlt]

/-! ## C67 -/

/-- A stored adjustment, as the property asks. -/
def ValidFee : FeeType → Prop
  | .fixed f => 0 < f
  | .percentage p => 1 ≤ p ∧ p ≤ 100
  | .none => False

/-- The full claim: every stored adjustment has a valid fee. -/
def StoredValid (s : State) : Prop :=
  ∀ a c, s.known a = some c →
    match c with
    | .fixed f => ValidFee (.fixed f)
    | .percentage p => ValidFee (.percentage p)
    | .timeBased t _ => ValidFee t
    | .transactionBased t _ _ => ValidFee t
    | .none => False

/-- What holds: as claimed for permanent adjustments; limited ones have some fee type, and a limit that is not zero. -/
def StoredValidPartial (s : State) : Prop :=
  ∀ a c, s.known a = some c →
    match c with
    | .fixed f => ValidFee (.fixed f)
    | .percentage p => ValidFee (.percentage p)
    | .timeBased t e => t ≠ .none ∧ 0 < e
    | .transactionBased t b e => t ≠ .none ∧ 0 < e ∧ b = a
    | .none => False

theorem admin_valid (s : State) (d : Admin) (h : StoredValidPartial s) : StoredValidPartial (admin s d) := by
  cases d with
  | remove b =>
    simp only [admin]
    split
    · intro a c hc
      by_cases ha : a = b
      · subst ha; simp at hc
      · simp only [upd_ne _ _ ha] at hc; exact h a c hc
    · exact h
  | set b t j =>
    simp only [admin]
    split
    · rename_i hv
      intro a c hc
      by_cases ha : a = b
      · subst ha
        simp only [upd_same, Option.some.injEq] at hc
        subst hc
        cases j with
        | timeBased d =>
          simp only [mkConfig] at hv ⊢
          simp only [isValid, Bool.and_eq_true, bne_iff_ne, ne_eq] at hv
          exact ⟨hv.2, by omega⟩
        | transactionBased n =>
          simp only [mkConfig] at hv ⊢
          simp only [isValid, Bool.and_eq_true, bne_iff_ne, ne_eq] at hv
          exact ⟨hv.2, by omega, trivial⟩
        | none =>
          cases t with
          | fixed f => simp only [mkConfig, isValid, bne_iff_ne, ne_eq] at hv ⊢; simp only [ValidFee]; omega
          | percentage p =>
            simp only [mkConfig, isValid, Bool.and_eq_true, bne_iff_ne, ne_eq, decide_eq_true_eq] at hv ⊢
            simp only [ValidFee]; omega
          | none => simp [mkConfig, isValid] at hv
      · simp only [upd_ne _ _ ha] at hc; exact h a c hc
    · exact h

theorem step_known (pot : Acct) (s : State) (x : Step) :
    (step pot s x).known = s.known ∨ ∃ s1 d, s1.known = s.known ∧ (step pot s x).known = (admin s1 d).known := by
  cases x with
  | admin d => exact Or.inr ⟨s, d, rfl, rfl⟩
  | block => exact Or.inl rfl
  | tx who ok fee corrected tip dispatch inner =>
    by_cases h0 : fee = 0
    · simp only [step, if_pos h0]
      cases inner with
      | none => exact Or.inl rfl
      | some d => exact Or.inr ⟨{ s with nonce := upd s.nonce who (s.nonce who + 1), bal := dispatch s.bal }, d, rfl, rfl⟩
    · cases hw : withdrawFee ok s.bal who fee with
      | none => left; simp only [step, if_neg h0, hw]
      | some b =>
        simp only [step, if_neg h0, hw, correctAndDeposit]
        cases inner with
        | none => exact Or.inl rfl
        | some d => exact Or.inr ⟨{ s with nonce := upd s.nonce who (s.nonce who + 1), bal := dispatch b }, d, rfl, rfl⟩

/-- C67, the part that holds, in every history. Missing: the fee inside a time or transaction based adjustment is not checked,
see `C67_limited_fee_unchecked`. -/
theorem C67_stored_valid_partial (pot : Acct) (nonce : Acct → Nat) (block : Nat) (bal : Balances) (steps : List Step) :
    StoredValidPartial (runFrom pot (init nonce block bal) steps) := by
  induction steps using List.reverseRecOn with
  | nil => intro a c hc; simp [runFrom, init] at hc
  | append_singleton l x ih =>
    rw [runFrom_snoc]
    generalize runFrom pot (init nonce block bal) l = s at ih
    rcases step_known pot s x with h | ⟨s1, d, h1, h⟩
    · intro a c hc; rw [h] at hc; exact ih a c hc
    · have := admin_valid s1 d (by intro a c hc; rw [h1] at hc; exact ih a c hc)
      intro a c hc; rw [h] at hc; exact this a c hc

/-! ## Non-vacuity and counterexamples -/

def exA : Acct := Vector.replicate 32 1
def exPot : Acct := Vector.replicate 32 9
def exBal : Balances := { free := fun _ => 1000, reserved := fun _ => 0 }
def exS : State := init (fun _ => 4) 7 exBal
def exTx (fee corrected tip : Nat) : Step := .tx exA true fee corrected tip id none

/-- Two adjusted transactions at 25 percent off, a third at the full price; and `C66`'s hypotheses hold of this history. -/
example : ((runFrom exPot exS [.admin (.set exA (.percentage 25) (.transactionBased 2)), exTx 100 90 10, exTx 100 100 0, exTx 100 90 0]).log.map
    fun c => (c.kept, c.refund, c.adjusted)) = [(70, 30, true), (75, 25, true), (90, 10, false)] := by decide +kernel

example : ∀ x ∈ [exTx 100 90 10, exTx 100 100 0], ¬ Touches exA x := by simp [exTx, Touches]

/-- An adjustment for two blocks set in block 7: charged 30 + tip in blocks 7 and 8, the full fee in block 9. -/
example : ((runFrom exPot exS [.admin (.set exA (.fixed 30) (.timeBased 2)), exTx 100 90 10, .block, exTx 100 90 10, .block, exTx 100 90 10]).log.map
    fun c => (c.kept, c.block, c.adjusted)) = [(40, 7, true), (40, 8, true), (90, 9, false)] := by decide +kernel

/-- A payer left with nothing gets no refund. -/
example : ((runFrom exPot exS [.tx exA true 100 90 0 (fun b => { b with free := fun _ => 0 }) none]).log.map
    fun c => (c.kept, c.refund)) = [(100, 0)] := by decide +kernel

/-- C65 is no claim that adjustments lower the fee: a fixed fee above the corrected fee makes the sender pay more than
without adjustment, up to what was withdrawn. -/
theorem C65_fixed_fee_can_raise :
    (runFrom exPot exS [.admin (.set exA (.fixed 500) .none), exTx 100 60 10]).log.map (fun c => (c.corrected, c.kept)) = [(60, 100)] := by
  decide +kernel

/-- C67 is false (finding P1): an adjustment limited in time or count is stored with a zero fixed fee, or a percentage above 100. -/
theorem C67_limited_fee_unchecked :
    ¬ (∀ (steps : List Step), StoredValid (runFrom exPot exS steps)) ∧
    (runFrom exPot exS [.admin (.set exA (.fixed 0) (.timeBased 5))]).known exA = some (.timeBased (.fixed 0) 12) ∧
    (runFrom exPot exS [.admin (.set exA (.percentage 250) (.transactionBased 5)), exTx 100 60 10]).log.map (·.kept) = [10] := by
  refine ⟨?_, by decide +kernel, by decide +kernel⟩
  intro h
  have h1 := h [.admin (.set exA (.fixed 0) (.timeBased 5))] exA (.timeBased (.fixed 0) 12) (by decide +kernel)
  simp [ValidFee] at h1

end Verif.Fees
