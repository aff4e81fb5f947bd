import Verif.Props.ProxyCalls
import Verif.Model.Avn
import Verif.Props.Avn

/-!
# What a verified signature means (C72), and what removing a validator does (C26)
-/

namespace Verif.ProxyCalls

/-- Specification: `sig` is a signature of `msg` by `who` under the two supported schemes. -/
def SignedBy (cr : Crypto) (who : Acct) (sig : Sig) (msg : List UInt8) : Prop :=
  match sig with
  | .sr25519 raw => cr.verifySr who raw msg = true
  | .ecdsa raw => cr.recoverEcdsa raw msg = some who
  | .ed25519 _ => False

/-- **C72, what verification means.** An authorisation is accepted for a payload exactly when its signature is the named
signer's signature of that payload, or (sr25519 only) of that payload wrapped by a browser extension. No other account's
signature and no other message is accepted. -/
theorem C72_verified_means_signed (cr : Crypto) (p : Proof) (m : List UInt8) :
    verifySignature cr p m = true ↔
      SignedBy cr p.signer p.signature m ∨
        (∃ raw, p.signature = .sr25519 raw ∧ SignedBy cr p.signer p.signature (wrapBytes m)) := by
  unfold verifySignature SignedBy
  cases h : p.signature with
  | ed25519 raw => simp
  | sr25519 raw => simp [verifySrSignature, or_comm]
  | ecdsa raw => simp

/-- Non-vacuity: with a signature scheme under which only account `1…1` signs, verification accepts that account and
refuses another one. -/
example : let one : Acct := Vector.replicate 32 1
    let two : Acct := Vector.replicate 32 2
    let cr : Crypto := { verifySr := fun who _ _ => decide (who = one), recoverEcdsa := fun _ _ => some one }
    verifySignature cr ⟨one, two, .ecdsa (Vector.replicate 65 0)⟩ [1, 2] = true ∧
    verifySignature cr ⟨two, two, .ecdsa (Vector.replicate 65 0)⟩ [1, 2] = false ∧
    verifySignature cr ⟨one, two, .sr25519 (Vector.replicate 64 0)⟩ [1, 2] = true ∧
    verifySignature cr ⟨two, two, .sr25519 (Vector.replicate 64 0)⟩ [1, 2] = false := by
  decide +kernel

end Verif.ProxyCalls

namespace Verif.Avn

/-- **C26, leaving the active list.** In a list of validators with pairwise different accounts, removing an account
removes that validator and nobody else, and keeps the order of the others: afterwards the removed account can no longer
vote and every other validator still can. -/
theorem C26_removed_validator_cannot_vote (vs : List Validator) (a : Nat) (hn : (vs.map (·.account)).Nodup) :
    removeValidator vs a = vs.filter (fun v => v.account ≠ a) ∧
      isValidator (removeValidator vs a) a = false ∧
      ∀ b, b ≠ a → isValidator (removeValidator vs a) b = isValidator vs b := by
  have key : removeValidator vs a = vs.filter (fun v => v.account ≠ a) := by
    unfold removeValidator
    induction vs with
    | nil => rfl
    | cons v vs ih =>
      simp only [List.map_cons, List.nodup_cons] at hn
      by_cases h : v.account = a
      · subst h
        have : vs.filter (fun w => w.account ≠ v.account) = vs := by
          apply List.filter_eq_self.2
          intro w hw
          have : w.account ≠ v.account := fun he => hn.1 (List.mem_map.2 ⟨w, hw, he⟩)
          simpa using this
        rw [List.eraseP_cons, List.filter_cons]
        simp only [beq_self_eq_true, if_true, ne_eq, not_true, decide_false, Bool.false_eq_true, if_false]
        exact this.symm
      · have h' : (v.account == a) = false := by simpa using h
        rw [List.eraseP_cons, h', List.filter_cons]
        simp [h, ih hn.2]
  refine ⟨key, ?_, ?_⟩
  · rw [key]; unfold isValidator; simp [List.any_eq_false]
  · intro b hb
    rw [key]; unfold isValidator
    rw [Bool.eq_iff_iff]
    simp only [List.any_eq_true, List.mem_filter, beq_iff_eq]
    constructor
    · rintro ⟨v, ⟨h1, _⟩, h2⟩; exact ⟨v, h1, h2⟩
    · rintro ⟨v, h1, h2⟩; exact ⟨v, ⟨h1, by simp [h2, hb]⟩, h2⟩

example : removeValidator [⟨1, 10⟩, ⟨2, 20⟩, ⟨3, 30⟩] 2 = [⟨1, 10⟩, ⟨3, 30⟩] := by decide

end Verif.Avn
