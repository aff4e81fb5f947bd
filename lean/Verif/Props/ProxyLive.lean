import Verif.Props.Proxy
import Verif.Props.TokenLive

/-!
# Valid relayed requests are carried out: C145

C61 and C62 say what a relayer cannot do; this file says which relayed requests are carried out, and that they do what the signer asked for.
-/

namespace Verif.Proxy
open Verif.ProxyCalls

variable {R : Type}

/-- Specification: the bytes a payer signs to pay for the proxied call with proof `p`. -/
def paymentBytes (p : Proof) (i : PaymentInfo) (n : U64) : List UInt8 :=
  scaleBytes (ascii "authorization for proxy payment") ++
    (p.signer.toList ++ (p.relayer.toList ++ (encSig p.signature ++ (i.recipient.toList ++ (leBytes 16 i.amount.val ++
      (i.token.toList ++ leBytes 8 n.val))))))

/-- Specification: the fee offered with a call is in order: signed by the payer for this call and its current payment nonce, and payable. -/
def FeeInOrder (rt : Runtime R) (env : TokenManager.Env) (s : State R) (p : Proof) (i : PaymentInfo) : Prop :=
  verifySignature rt.crypto ⟨i.payer, i.payer, i.signature⟩ (paymentBytes p i (s.payNonce i.payer)) = true ∧
    TokenManager.Payable env s.world.tm i.token i.payer i.recipient i.amount.val

theorem charge_iff (rt : Runtime R) (env : TokenManager.Env) (p : Proof) (i : PaymentInfo) (s : State R) :
    (chargeFee rt env p i s).2 = none ↔ FeeInOrder rt env s p i := by
  have hb : paymentAuthorised rt.crypto p i (s.payNonce i.payer) =
      verifySignature rt.crypto ⟨i.payer, i.payer, i.signature⟩ (paymentBytes p i (s.payNonce i.payer)) := by
    unfold paymentAuthorised paymentPayload paymentBytes paymentContext encProof
    simp only [List.append_assoc]
  unfold chargeFee FeeInOrder
  rw [hb, ← TokenManager.settle_iff]
  by_cases h : verifySignature rt.crypto ⟨i.payer, i.payer, i.signature⟩ (paymentBytes p i (s.payNonce i.payer)) = true
  · rw [if_pos h]
    cases hs : TokenManager.settleTransfer env s.world.tm i.token i.payer i.recipient i.amount.val with
    | mk tm e => cases e <;> simp [h]
  · rw [if_neg h]; simp [h]

/-- **C145.** A relayed call is accepted exactly when it is of a supported kind, the relayer is the one named in its proof, and the fee offered
with it, if any, is in order: signed by the payer over this proof, recipient, amount, token and the payer's current payment nonce, and payable.
Neither the inner signature nor the fate of the inner call matters. -/
theorem C145_accepted_iff (rt : Runtime R) (env : TokenManager.Env) (relayer : Acct) (c : Call) (pay : Option PaymentInfo) (s : State R) :
    (proxy rt env relayer c pay s).2 = none ↔
      ∃ p, c.proof? = some p ∧ relayer = p.relayer ∧ ∀ i, pay = some i → FeeInOrder rt env s p i := by
  unfold proxy
  cases hp : c.proof? with
  | none => simp
  | some p =>
    dsimp only
    by_cases hr : relayer = p.relayer
    · rw [if_neg (by simpa using hr)]
      cases pay with
      | none => simp [hr]
      | some i =>
        dsimp only
        have := charge_iff rt env p i s
        cases hc : chargeFee rt env p i s with
        | mk s1 e =>
          rw [hc] at this
          cases e with
          | none =>
            simp only [true_iff] at this
            simp [hr, this]
          | some e =>
            simp only [reduceCtorEq, false_iff] at this
            simp [this]
    · rw [if_pos hr]
      simp [hr]

/-- **C145.** Without a fee, a relayed call with a valid signature does to the chain exactly what the signer's own call would do; if that fails,
nothing. Without a valid signature it does nothing. -/
theorem C145_does_the_signers_call (rt : Runtime R) (env : TokenManager.Env) (c : Call) (p : Proof) (s : State R) (hp : c.proof? = some p) :
    (proxy rt env p.relayer c none s).1.world =
      if (∃ m, payload (rt.nonces s.world) c = some m ∧ verifySignature rt.crypto p m = true) then
        (rt.dispatch p.signer c s.world).getD s.world
      else s.world := by
  have hsig : signatureIsValid rt.crypto (rt.nonces s.world) c = true ↔
      ∃ m, payload (rt.nonces s.world) c = some m ∧ verifySignature rt.crypto p m = true := by
    unfold signatureIsValid
    rw [hp]
    cases hm : payload (rt.nonces s.world) c with
    | none => simp
    | some m => simp
  have e : proxy rt env p.relayer c none s = (runInner rt p.relayer p c s, none) := by
    unfold proxy
    rw [hp]
    dsimp only
    rw [if_neg (by simp)]
  rw [e]
  unfold runInner
  by_cases h : signatureIsValid rt.crypto (rt.nonces s.world) c = true
  · rw [if_pos h, if_pos (hsig.mp h)]
    cases rt.dispatch p.signer c s.world <;> rfl
  · rw [if_neg h, if_neg (fun hc => h (hsig.mpr hc))]

/-- **C145.** With a fee in order, the fee is paid first (exactly this amount, and the payer's payment nonce goes up by one), and then the call
does to the chain what the signer's own call would do there. -/
theorem C145_fee_then_call (rt : Runtime R) (env : TokenManager.Env) (c : Call) (p : Proof) (i : PaymentInfo) (s : State R)
    (hp : c.proof? = some p) (hf : FeeInOrder rt env s p i) :
    ∃ tm, TokenManager.Paid s.world.tm tm i.token i.payer i.recipient i.amount.val ∧
      (proxy rt env p.relayer c (some i) s).1.payNonce = upd s.payNonce i.payer (s.payNonce i.payer + 1) ∧
      (proxy rt env p.relayer c (some i) s).1.world =
        (if (∃ m, payload (rt.nonces { s.world with tm := tm }) c = some m ∧ verifySignature rt.crypto p m = true) then
          (rt.dispatch p.signer c { s.world with tm := tm }).getD { s.world with tm := tm }
        else { s.world with tm := tm }) := by
  have hc0 := (charge_iff rt env p i s).mpr hf
  rcases chargeFee_cases rt env p i s with ⟨e, he⟩ | ⟨tm, -, hs, he⟩
  · rw [he] at hc0; cases hc0
  · have hpd := TokenManager.settle_paid env s.world.tm i.token i.payer i.recipient i.amount.val (by rw [hs])
    rw [hs] at hpd
    refine ⟨tm, hpd, ?_⟩
    have e : proxy rt env p.relayer c (some i) s = (runInner rt p.relayer p c (paidState p i tm s), none) := by
      unfold proxy
      rw [hp]
      dsimp only
      rw [if_neg (by simp), he]
    have e0 : proxy rt env p.relayer c none (paidState p i tm s) = (runInner rt p.relayer p c (paidState p i tm s), none) := by
      unfold proxy
      rw [hp]
      dsimp only
      rw [if_neg (by simp)]
    have hw := C145_does_the_signers_call rt env c p (paidState p i tm s) hp
    rw [e0] at hw
    rw [e]
    refine ⟨?_, hw⟩
    rcases runInner_cases rt p.relayer p c (paidState p i tm s) with ⟨-, w, -, h⟩ | ⟨-, -, h⟩ | ⟨-, h⟩ <;> rw [h] <;> rfl

/-! ## Examples -/

/-- The fee of the first call of the example history is in order, and that of the third is not: only 10 are left. -/
example : FeeInOrder exRt exEnv (run exRt ⟨exTm, 0⟩ []) exProof (exPay 20) ∧
    ¬ FeeInOrder exRt exEnv (run exRt ⟨exTm, 0⟩ (exSteps.take 2)) exProof (exPay 20) := by
  constructor
  · exact (charge_iff _ _ _ _ _).mp (by decide +kernel)
  · intro h
    have h2 := (charge_iff _ _ _ _ _).mpr h
    exact absurd h2 (by decide +kernel)

/-- The first call is carried out: its signature is valid and its dispatch succeeds. -/
example : ∃ m, payload (exRt.nonces (run exRt ⟨exTm, 0⟩ []).world) (.signedTransfer exProof (exAcct 1) (exAcct 3) (Vector.replicate 20 8) 5) = some m ∧
    verifySignature exRt.crypto exProof m = true ∧
    (exRt.dispatch exProof.signer (.signedTransfer exProof (exAcct 1) (exAcct 3) (Vector.replicate 20 8) 5) (run exRt ⟨exTm, 0⟩ []).world).isSome :=
  ⟨_, rfl, by decide +kernel, by decide +kernel⟩

end Verif.Proxy
