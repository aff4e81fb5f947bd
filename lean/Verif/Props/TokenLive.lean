import Verif.Props.TokenManagerLower

/-!
# Exactly the valid requests of token holders are honoured: C143

C01 to C11 say that nothing else happens; this file says that a request with a valid authorisation, enough funds and lowering enabled is
carried out, in every state that can be reached.
-/

namespace Verif.TokenManager
open Verif.Lower

/-- Specification: `frm` can pay `amount` of `token` to `dst`. For the native token an empty payment or one to oneself needs nothing; other
payments need the funds, free of locks, and room in the recipient's `u128`. -/
def Payable (env : Env) (s : State) (token : Addr) (frm dst : Acct) (amount : Nat) : Prop :=
  if token = s.avtContract then
    amount = 0 ∨ frm = dst ∨ (amount + env.frozen frm ≤ s.avt frm ∧ s.avt dst + amount < 2 ^ 128)
  else amount ≤ s.bal token frm ∧ (frm = dst ∨ s.bal token dst + amount < 2 ^ 128)

/-- Specification: the balances after the payment. -/
def Paid (s s' : State) (token : Addr) (frm dst : Acct) (amount : Nat) : Prop :=
  (∀ a, s'.avt a + (if token = s.avtContract ∧ a = frm then amount else 0) = s.avt a + (if token = s.avtContract ∧ a = dst then amount else 0)) ∧
  (∀ t a, s'.bal t a + (if token ≠ s.avtContract ∧ t = token ∧ a = frm then amount else 0) =
    s.bal t a + (if token ≠ s.avtContract ∧ t = token ∧ a = dst then amount else 0))

theorem settle_iff (env : Env) (s : State) (token : Addr) (frm dst : Acct) (amount : Nat) :
    (settleTransfer env s token frm dst amount).2 = none ↔ Payable env s token frm dst amount := by
  unfold settleTransfer Payable
  by_cases ht : token = s.avtContract
  · rw [if_pos ht, if_pos ht]
    unfold nativeTransfer
    by_cases h0 : amount = 0 ∨ frm = dst
    · rw [if_pos h0]
      simp only [true_iff]
      rcases h0 with h | h
      · exact .inl h
      · exact .inr (.inl h)
    rw [if_neg h0]
    rw [not_or] at h0
    by_cases h1 : s.avt frm < amount
    · rw [if_pos h1]
      constructor
      · intro h; cases h
      · rintro (h | h | ⟨h, -⟩)
        · exact absurd h h0.1
        · exact absurd h h0.2
        · omega
    rw [if_neg h1]
    by_cases h2 : s.avt frm - amount < env.frozen frm
    · rw [if_pos h2]
      constructor
      · intro h; cases h
      · rintro (h | h | ⟨h, -⟩)
        · exact absurd h h0.1
        · exact absurd h h0.2
        · omega
    rw [if_neg h2]
    by_cases h3 : s.avt dst + amount ≥ pow128
    · rw [if_pos h3]
      constructor
      · intro h; cases h
      · rintro (h | h | ⟨-, h⟩)
        · exact absurd h h0.1
        · exact absurd h h0.2
        · unfold pow128 at h3; omega
    rw [if_neg h3]
    simp only [true_iff]
    refine .inr (.inr ⟨by omega, ?_⟩)
    unfold pow128 at h3; omega
  · rw [if_neg ht, if_neg ht]
    by_cases h1 : s.bal token frm < amount
    · rw [if_pos h1]
      constructor
      · intro h; cases h
      · rintro ⟨h, -⟩; omega
    rw [if_neg h1]
    by_cases h2 : frm ≠ dst ∧ checkedAdd128 (s.bal token dst) amount = none
    · rw [if_pos h2]
      constructor
      · intro h; cases h
      · rintro ⟨-, h | h⟩
        · exact absurd h h2.1
        · have := h2.2
          unfold checkedAdd128 pow128 at this
          rw [if_pos (by omega)] at this
          cases this
    rw [if_neg h2]
    simp only [true_iff]
    refine ⟨by omega, ?_⟩
    by_cases e : frm = dst
    · exact .inl e
    · right
      by_contra hc
      apply h2
      refine ⟨e, ?_⟩
      unfold checkedAdd128 pow128
      rw [if_neg (by omega)]

theorem settle_paid (env : Env) (s : State) (token : Addr) (frm dst : Acct) (amount : Nat)
    (h : (settleTransfer env s token frm dst amount).2 = none) :
    Paid s (settleTransfer env s token frm dst amount).1 token frm dst amount := by
  unfold Paid
  unfold settleTransfer at *
  by_cases ht : token = s.avtContract
  · rw [if_pos ht] at h ⊢
    unfold nativeTransfer at *
    split at h
    · rename_i hc
      refine ⟨fun a => ?_, fun t a => ?_⟩
      · simp only [if_pos hc]
        rcases hc with e | e
        · subst e; simp
        · rw [e]
      · simp [hc, ht]
    · rename_i h0
      rw [not_or] at h0
      split at h
      · cases h
      · split at h
        · cases h
        · split at h
          · cases h
          · rename_i h1 h2 h3
            rw [if_neg (by rw [not_or]; exact h0), if_neg h1, if_neg h2, if_neg h3]
            refine ⟨fun a => ?_, fun t a => by simp [ht]⟩
            simp only [ht, true_and, upd_apply]
            by_cases e1 : a = dst
            · subst e1
              have := Ne.symm h0.2
              simp [this]
            · by_cases e2 : a = frm
              · subst e2; simp [e1]; omega
              · simp [e1, e2]
  · rw [if_neg ht] at h ⊢
    split at h
    · cases h
    · split at h
      · cases h
      · rename_i h1 h2
        rw [if_neg h1, if_neg h2]
        refine ⟨fun a => by simp [ht], fun t a => ?_⟩
        simp only [ne_eq, ht, not_false_eq_true, true_and, upd_apply]
        by_cases e : t = token
        · subst e
          simp only [if_true, true_and, upd_apply]
          by_cases e1 : a = dst
          · subst e1
            by_cases e2 : a = frm
            · subst e2; simp; omega
            · simp [e2]
          · by_cases e2 : a = frm
            · subst e2; simp [e1]; omega
            · simp [e1, e2]
        · simp [e]

theorem settle_nonce (env : Env) (s : State) (token : Addr) (frm dst : Acct) (amount : Nat) :
    (settleTransfer env s token frm dst amount).1.nonce = s.nonce := by
  unfold settleTransfer nativeTransfer
  dsimp only
  repeat' split
  all_goals rfl

/-- **C143.** A signed transfer is accepted exactly when it is submitted by the account it debits, with a valid proof over exactly these
parameters and the account's current nonce, and the account can pay; and then it moves exactly this amount. -/
theorem C143_transfer_accepted_iff (env : Env) (s : State) (o : Acct) (p : Proof) (frm dst : Acct) (token : Addr) (amount : Nat) :
    let r := step env s (.signedTransfer o p frm dst token amount)
    (r.2 = none ↔ o = frm ∧ verifySignature env.crypto p (encodeTransfer p.relayer frm dst token amount (s.nonce frm)) = true ∧
      Payable env s token frm dst amount) ∧
    (r.2 = none → Paid s r.1 token frm dst amount ∧ r.1.nonce frm = (s.nonce frm + 1) % 2 ^ 64) := by
  intro r
  have e : r = step env s (.signedTransfer o p frm dst token amount) := rfl
  unfold step at e
  dsimp only at e
  have key : (signedTransfer env s o p frm dst token amount).2 = none ↔ o = frm ∧
      verifySignature env.crypto p (encodeTransfer p.relayer frm dst token amount (s.nonce frm)) = true ∧ Payable env s token frm dst amount := by
    rw [← settle_iff]
    unfold signedTransfer
    by_cases ho : o = frm
    · subst ho
      rw [if_neg (by simp)]
      by_cases hv : verifySignature env.crypto p (encodeTransfer p.relayer o dst token amount (s.nonce o)) = true
      · rw [hv, if_neg (by simp)]
        cases hs : settleTransfer env s token o dst amount with
        | mk s1 r1 => cases r1 <;> simp
      · rw [if_pos (by simpa using hv)]
        simp [hv]
    · rw [if_pos ho]; simp [ho]
  have h2 : r.2 = none ↔ (signedTransfer env s o p frm dst token amount).2 = none := by rw [e, transactional_err]
  refine ⟨h2.trans key, fun h => ?_⟩
  have h3 := h2.mp h
  obtain ⟨ho, hv, hp⟩ := key.mp h3
  rw [transactional_none h3] at e
  have hs := (settle_iff env s token frm dst amount).mpr hp
  have hpd := settle_paid env s token frm dst amount hs
  have hn := settle_nonce env s token frm dst amount
  subst ho
  have e2 : r = ({ (settleTransfer env s token o dst amount).1 with
      nonce := upd (settleTransfer env s token o dst amount).1.nonce o (wrapInc64 ((settleTransfer env s token o dst amount).1.nonce o)) }, none) := by
    rw [e]
    unfold signedTransfer
    rw [if_neg (by simp), hv, if_neg (by simp)]
    cases hx : settleTransfer env s token o dst amount with
    | mk s1 r1 =>
      rw [hx] at hs
      dsimp only at hs
      subst hs
      rfl
  rw [e2]
  refine ⟨hpd, ?_⟩
  dsimp only
  rw [upd_same, hn]
  rfl

/-- C143: through a relayer a transfer is accepted exactly when the relayer is the one named in the proof and the signer could have
submitted it, and it then does the same. -/
theorem C143_relayed_transfer (env : Env) (s : State) (r : Acct) (p : Proof) (frm dst : Acct) (token : Addr) (amount : Nat) :
    (r = p.relayer → step env s (.proxy r (.transfer p frm dst token amount)) = step env s (.signedTransfer p.signer p frm dst token amount)) ∧
    (r ≠ p.relayer → (step env s (.proxy r (.transfer p frm dst token amount))).2 ≠ none) := by
  unfold step proxy
  dsimp only
  constructor
  · intro h
    rw [if_neg (by simp [h])]
    rcases transactional_cases s (signedTransfer env s p.signer p frm dst token amount) with ⟨h1, h2⟩ | ⟨e, h1, h2⟩
    · rw [h2, h2]
    · rw [h2]; rfl
  · intro h
    rw [if_pos h]
    simp [transactional]

/-- What an accepted request to lower does: the lower is on the agenda under the next id, and no balance changes yet. -/
def Scheduled (s s' : State) (frm : Acct) (token : Addr) (amount : Nat) (t1 : Addr) : Prop :=
  s'.scheduled s.lowerNonce = some ⟨frm, token, amount, t1⟩ ∧ s'.lowerNonce = (s.lowerNonce + 1) % 2 ^ 32 ∧
    (∀ i, i ≠ s.lowerNonce → s'.scheduled i = s.scheduled i) ∧ s'.bal = s.bal ∧ s'.avt = s.avt

/-- **C143.** In every history of fewer than 2³² steps from a state whose lower ids are in order (such as the empty state), a direct request
to lower is accepted exactly when it is the account's own, lowering is enabled, the amount is not zero, and the scheduler takes it. -/
theorem C143_direct_lower_accepted_iff (hist : List (Env × Step)) (s₀ : State) (hok : LowersOk s₀) (hr : Regular s₀ hist)
    (env : Env) (o frm : Acct) (token : Addr) (amount : Nat) (t1 : Addr) :
    let s := run s₀ hist
    let r := step env s (.scheduleDirectLower o frm token amount t1)
    (r.2 = none ↔ o = frm ∧ s.lowersDisabled = false ∧ amount ≠ 0 ∧ env.scheduleOk = true) ∧
    (r.2 = none → Scheduled s r.1 frm token amount t1) := by
  intro s r
  have hfree : s.scheduled s.lowerNonce = none := by
    have h := (C05_one_stage hist s₀ hok hr s.lowerNonce).2 (Nat.le_refl _)
    have h : (s.scheduled s.lowerNonce).isSome.toNat + (s.pending s.lowerNonce).isSome.toNat + (s.ready s.lowerNonce).isSome.toNat +
      (s.failed s.lowerNonce).isSome.toNat = 0 := h
    cases hx : s.scheduled s.lowerNonce with
    | none => rfl
    | some c => rw [hx] at h; simp at h
  have e : r = transactional s (scheduleDirectLower env s o frm token amount t1) := rfl
  clear_value s r
  have key : ((scheduleDirectLower env s o frm token amount t1).2 = none ↔ o = frm ∧ s.lowersDisabled = false ∧ amount ≠ 0 ∧ env.scheduleOk = true) ∧
      ((scheduleDirectLower env s o frm token amount t1).2 = none → Scheduled s (scheduleDirectLower env s o frm token amount t1).1 frm token amount t1) := by
    unfold scheduleDirectLower
    by_cases ho : o = frm
    · subst ho
      rw [if_neg (by simp)]
      cases hd : s.lowersDisabled with
      | true => rw [if_pos rfl]; simp
      | false =>
        rw [if_neg (by simp)]
        by_cases ha : amount = 0
        · rw [if_pos ha]; simp [ha]
        · rw [if_neg ha]
          unfold scheduleLower
          rw [hfree]
          cases hsch : env.scheduleOk with
          | false => simp
          | true =>
            rw [if_neg (by simp)]
            refine ⟨by simp [ha], fun _ => ⟨?_, ?_, fun i hi => ?_, ?_, ?_⟩⟩
            · simp
            · rfl
            · simp [upd_ne _ _ hi]
            · rfl
            · rfl
    · rw [if_pos ho]; simp [ho]
  have h2 : r.2 = none ↔ (scheduleDirectLower env s o frm token amount t1).2 = none := by rw [e, transactional_err]
  refine ⟨h2.trans key.1, fun h => ?_⟩
  rw [e, transactional_none (h2.mp h)]
  exact key.2 (h2.mp h)

/-- **C143.** The same for a signed request: also the proof must be over exactly these parameters and the account's current nonce. -/
theorem C143_signed_lower_accepted_iff (hist : List (Env × Step)) (s₀ : State) (hok : LowersOk s₀) (hr : Regular s₀ hist)
    (env : Env) (o : Acct) (p : Proof) (frm : Acct) (token : Addr) (amount : Nat) (t1 : Addr) :
    let s := run s₀ hist
    let r := step env s (.scheduleSignedLower o p frm token amount t1)
    (r.2 = none ↔ o = frm ∧ s.lowersDisabled = false ∧ amount ≠ 0 ∧ env.scheduleOk = true ∧
      verifySignature env.crypto p (encodeLower p.relayer frm token amount t1 (s.nonce frm)) = true) ∧
    (r.2 = none → Scheduled s r.1 frm token amount t1 ∧ r.1.nonce frm = (s.nonce frm + 1) % 2 ^ 64) := by
  intro s r
  have hfree : s.scheduled s.lowerNonce = none := by
    have h := (C05_one_stage hist s₀ hok hr s.lowerNonce).2 (Nat.le_refl _)
    have h : (s.scheduled s.lowerNonce).isSome.toNat + (s.pending s.lowerNonce).isSome.toNat + (s.ready s.lowerNonce).isSome.toNat +
      (s.failed s.lowerNonce).isSome.toNat = 0 := h
    cases hx : s.scheduled s.lowerNonce with
    | none => rfl
    | some c => rw [hx] at h; simp at h
  have e : r = transactional s (scheduleSignedLower env s o p frm token amount t1) := rfl
  clear_value s r
  have key : ((scheduleSignedLower env s o p frm token amount t1).2 = none ↔ o = frm ∧ s.lowersDisabled = false ∧ amount ≠ 0 ∧
        env.scheduleOk = true ∧ verifySignature env.crypto p (encodeLower p.relayer frm token amount t1 (s.nonce frm)) = true) ∧
      ((scheduleSignedLower env s o p frm token amount t1).2 = none →
        Scheduled s (scheduleSignedLower env s o p frm token amount t1).1 frm token amount t1 ∧
        (scheduleSignedLower env s o p frm token amount t1).1.nonce frm = (s.nonce frm + 1) % 2 ^ 64) := by
    unfold scheduleSignedLower
    by_cases ho : o = frm
    · subst ho
      rw [if_neg (by simp)]
      cases hd : s.lowersDisabled with
      | true => rw [if_pos rfl]; simp
      | false =>
        rw [if_neg (by simp)]
        by_cases ha : amount = 0
        · rw [if_pos ha]; simp [ha]
        · rw [if_neg ha]
          by_cases hv : verifySignature env.crypto p (encodeLower p.relayer o token amount t1 (s.nonce o)) = true
          · rw [hv, if_neg (by simp)]
            unfold scheduleLower
            rw [hfree]
            cases hsch : env.scheduleOk with
            | false => simp
            | true =>
              rw [if_neg (by simp)]
              refine ⟨by simp [ha], fun _ => ⟨⟨?_, ?_, fun i hi => ?_, ?_, ?_⟩, ?_⟩⟩
              · simp
              · rfl
              · simp [upd_ne _ _ hi]
              · rfl
              · rfl
              · simp only [upd_same]; rfl
          · rw [if_pos (by simpa using hv)]; simp [hv]
    · rw [if_pos ho]; simp [ho]
  have h2 : r.2 = none ↔ (scheduleSignedLower env s o p frm token amount t1).2 = none := by rw [e, transactional_err]
  refine ⟨h2.trans key.1, fun h => ?_⟩
  rw [e, transactional_none (h2.mp h)]
  exact key.2 (h2.mp h)

/-- C143: a relayed request to lower, the same. -/
theorem C143_relayed_lower (env : Env) (s : State) (r : Acct) (p : Proof) (frm : Acct) (token : Addr) (amount : Nat) (t1 : Addr) :
    (r = p.relayer → step env s (.proxy r (.lower p frm token amount t1)) = step env s (.scheduleSignedLower p.signer p frm token amount t1)) ∧
    (r ≠ p.relayer → (step env s (.proxy r (.lower p frm token amount t1))).2 ≠ none) := by
  unfold step proxy
  dsimp only
  constructor
  · intro h
    rw [if_neg (by simp [h])]
    rcases transactional_cases s (scheduleSignedLower env s p.signer p frm token amount t1) with ⟨h1, h2⟩ | ⟨e, h1, h2⟩
    · rw [h2, h2]
    · rw [h2]; rfl
  · intro h
    rw [if_pos h]
    simp [transactional]

/-- **C143.** A lower that comes due is carried out exactly when lowering is enabled, the sender still has the funds (free of locks), and the
bridge takes the request for its proof; otherwise it is dropped from the agenda and nothing is burned. -/
theorem C143_due_lower_executed_iff (env : Env) (s : State) (i : Nat) (c : LowerCall) (hs : s.scheduled i = some c) (ha : c.amount ≠ 0) :
    let r := step env s (.dispatchScheduled i)
    (r.2 = none ↔ s.lowersDisabled = false ∧ env.bridgeOk = true ∧
      (if c.token = s.avtContract then c.amount + env.frozen c.sender ≤ s.avt c.sender else c.amount ≤ s.bal c.token c.sender)) ∧
    (r.2 ≠ none → r.1 = { s with scheduled := upd s.scheduled i none }) := by
  intro r
  have e : r = dispatchScheduled env s i := rfl
  clear_value r
  unfold dispatchScheduled at e
  rw [hs] at e
  dsimp only at e
  generalize hs0 : ({ s with scheduled := upd s.scheduled i none } : State) = s0 at *
  have hk : s0.lowersDisabled = s.lowersDisabled ∧ s0.avt = s.avt ∧ s0.bal = s.bal ∧ s0.avtContract = s.avtContract := by
    subst hs0; exact ⟨rfl, rfl, rfl, rfl⟩
  refine ⟨?_, fun h => ?_⟩
  · rw [e, transactional_err, ← hk.1, ← hk.2.1, ← hk.2.2.1, ← hk.2.2.2]
    unfold executeLower
    cases hd : s0.lowersDisabled with
    | true => rw [if_pos rfl]; simp
    | false =>
      rw [if_neg (by simp)]
      unfold settleLower
      by_cases ht : c.token = s0.avtContract
      · simp only [if_pos ht]
        unfold nativeWithdraw
        rw [if_neg ha]
        by_cases h1 : s0.avt c.sender < c.amount
        · rw [if_pos h1]; simp; omega
        · rw [if_neg h1]
          by_cases h2 : s0.avt c.sender - c.amount < env.frozen c.sender
          · rw [if_pos h2]; simp; omega
          · rw [if_neg h2]
            dsimp only
            rw [if_neg ha]
            cases env.bridgeOk <;> simp
            omega
      · simp only [if_neg ht]
        by_cases h1 : s0.bal c.token c.sender < c.amount
        · rw [if_pos h1]; simp; omega
        · rw [if_neg h1]
          cases env.bridgeOk <;> simp
          omega
  · rcases transactional_cases s0 (executeLower env s0 c i) with ⟨h1, h2⟩ | ⟨e', h1, h2⟩
    · rw [e, h2] at h; exact absurd h1 h
    · rw [e, h2]

/-- **C143.** From there the lower goes on: the bridge's answer makes it claimable or failed; while it is claimable an Ethereum claim ends it;
claimable or failed, anybody can ask for a new proof while lowering is enabled. -/
theorem C143_lower_goes_on (env : Env) (s : State) (i : Nat) (ps : List UInt8) :
    (∀ len, s.pending i = some ps → len ≤ 10000 →
      (step env s (.lowerProofResult i true (some len))).1.ready i = some ps) ∧
    (s.pending i = some ps → (step env s (.lowerProofResult i true none)).1.failed i = some ps) ∧
    (s.ready i = some ps → env.eventKnown = true →
      (step env s (.event (.lowerClaimed i))).2 = none ∧ (step env s (.event (.lowerClaimed i))).1.ready i = none) ∧
    (∀ q, s.ready i = some ps ∨ s.ready i = none ∧ s.failed i = some ps → s.lowersDisabled = false → env.bridgeOk = true →
      (step env s (.regenerateLowerProof q i)).2 = none ∧ (step env s (.regenerateLowerProof q i)).1.pending i = some ps ∧
      (step env s (.regenerateLowerProof q i)).1.ready i = none) := by
  refine ⟨fun len hp hl => ?_, fun hp => ?_, fun hr hk => ?_, fun q hq hd hb => ?_⟩
  · have e : step env s (.lowerProofResult i true (some len)) =
        ({ s with pending := upd s.pending i none, ready := upd s.ready i (some ps) }, none) := by
      unfold step processLowerProofResult
      dsimp only
      rw [hp]
      dsimp only
      rw [if_neg (by simp), if_pos (by unfold lowerDataLimit; exact hl)]
    rw [e]; exact upd_same _ _ _
  · have e : step env s (.lowerProofResult i true none) =
        ({ s with pending := upd s.pending i none, failed := upd s.failed i (some ps) }, none) := by
      unfold step processLowerProofResult
      dsimp only
      rw [hp]
      dsimp only
      rw [if_neg (by simp)]
    rw [e]; exact upd_same _ _ _
  · have e : step env s (.event (.lowerClaimed i)) = ({ s with ready := upd s.ready i none }, none) := by
      unfold step processedEventHandler processLowerClaim
      dsimp only
      rw [hk, if_neg (by simp)]
      unfold removeUsedLower
      rw [hr]
    rw [e]; exact ⟨rfl, upd_same _ _ _⟩
  · rcases hq with h | ⟨h0, h⟩
    · have e : step env s (.regenerateLowerProof q i) =
          ({ s with ready := upd s.ready i none, pending := upd s.pending i (some ps) }, none) := by
        unfold step regenerateLowerProof
        dsimp only
        rw [hd, if_neg (by simp), h]
        dsimp only
        unfold regenerateProof
        dsimp only
        rw [hb, if_pos rfl]
        rfl
      rw [e]; exact ⟨rfl, upd_same _ _ _, upd_same _ _ _⟩
    · have e : step env s (.regenerateLowerProof q i) =
          ({ s with failed := upd s.failed i none, pending := upd s.pending i (some ps) }, none) := by
        unfold step regenerateLowerProof
        dsimp only
        rw [hd, if_neg (by simp), h0]
        dsimp only
        rw [h]
        dsimp only
        unfold regenerateProof
        dsimp only
        rw [hb, if_pos rfl]
        rfl
      rw [e]; exact ⟨rfl, upd_same _ _ _, h0⟩

/-- **C143.** A lift found on Ethereum, and a refund of a lower that is claimable, are credited exactly when the amount is not zero and fits
into the recipient's balance. -/
theorem C143_lift_accepted_iff (env : Env) (s : State) (token : Addr) (receiver : Acct) (amount : Nat) (hk : env.eventKnown = true) :
    ((step env s (.event (.lifted token receiver amount))).2 = none ↔ amount ≠ 0 ∧
      (if token = s.avtContract then s.avt receiver + amount < 2 ^ 128 else s.bal token receiver + amount < 2 ^ 128)) ∧
    (∀ i ps, s.ready i = some ps → ((step env s (.event (.lowerReverted token receiver amount i))).2 = none ↔ amount ≠ 0 ∧
      (if token = s.avtContract then s.avt receiver + amount < 2 ^ 128 else s.bal token receiver + amount < 2 ^ 128))) := by
  have hc : ∀ s : State, amount ≠ 0 → ((if token = s.avtContract then creditAvt s receiver amount else creditToken s token receiver amount).2 = none ↔
      amount ≠ 0 ∧ (if token = s.avtContract then s.avt receiver + amount < 2 ^ 128 else s.bal token receiver + amount < 2 ^ 128)) := by
    intro s ha
    by_cases ht : token = s.avtContract
    · rw [if_pos ht, if_pos ht]
      unfold creditAvt pow128
      by_cases h : s.avt receiver + amount ≥ 2 ^ 128
      · rw [if_pos (.inr h)]; simp; omega
      · rw [if_neg (by simp [ha]; omega)]; simp [ha]; omega
    · rw [if_neg ht, if_neg ht]
      unfold creditToken checkedAdd128 pow128
      by_cases h : s.bal token receiver + amount < 2 ^ 128
      · rw [if_pos h]; simp [ha]; omega
      · rw [if_neg h]; simp; omega
  constructor
  · unfold step processedEventHandler processLift
    dsimp only
    rw [hk, if_neg (by simp)]
    by_cases ha : amount = 0
    · rw [if_pos ha]; simp [ha]
    · rw [if_neg ha]; exact hc s ha
  · intro i ps hr
    unfold step processedEventHandler processLowerReverted
    dsimp only
    rw [hk, if_neg (by simp)]
    unfold removeUsedLower
    rw [hr]
    dsimp only
    by_cases ha : amount = 0
    · rw [if_pos ha]; simp [ha]
    · rw [if_neg ha]
      exact hc { s with ready := upd s.ready i none } ha

/-! ## Examples: the hypotheses are met -/

/-- A relayed transfer that is accepted, an account that cannot pay, and a payment to oneself of everything one has. -/
example : (step env0 s0 (.proxy accB (.transfer proofA accA accB tok 30))).2 = none ∧
    ¬ Payable env0 s0 tok accB accA 1 ∧ Payable env0 s0 tok accA accA 100 := by
  refine ⟨by decide +kernel, ?_, ?_⟩
  · unfold Payable; rw [if_neg (by decide +kernel)]
    have : s0.bal tok accB = 0 := by decide +kernel
    omega
  · unfold Payable; rw [if_neg (by decide +kernel)]
    have : s0.bal tok accA = 100 := by decide +kernel
    exact ⟨by omega, .inl rfl⟩

/-- A request to lower after a history, its execution when due, and what follows. -/
example : let s := run s0 hist0
    (step env0 s (.scheduleDirectLower accA accA tok 5 ethR)).2 = none ∧
    (∃ c, (run s0 (hist0.take 2)).scheduled 0 = some c ∧ c.amount ≠ 0 ∧ (step env0 (run s0 (hist0.take 2)) (.dispatchScheduled 0)).2 = none) ∧
    (sReady.ready 0).isSome ∧ sReady.lowersDisabled = false ∧ env0.bridgeOk = true ∧ env0.eventKnown = true :=
  ⟨by decide +kernel, ⟨⟨accA, tok, 20, ethR⟩, by decide +kernel, by decide +kernel, by decide +kernel⟩, by decide +kernel, by decide +kernel,
    by decide +kernel, by decide +kernel⟩

end Verif.TokenManager
