import Verif.Lemmas.TokenManager

namespace Verif.TokenManager
open Verif.Lower

/-- New balances after moving `a` from `f` to `d`. -/
def moved (m : Acct → Nat) (f d : Acct) (a : Nat) : Acct → Nat :=
  let m1 := upd m f (m f - a)
  upd m1 d (m1 d + a)

theorem moved_self {m : Acct → Nat} {f : Acct} {a : Nat} (h : a ≤ m f) : moved m f f a = m := by
  funext x; unfold moved
  by_cases hx : x = f
  · subst hx; simp; omega
  · simp [upd_apply, hx]

theorem moved_from {m : Acct → Nat} {f d : Acct} {a : Nat} (h : f ≠ d) : moved m f d a f = m f - a := by
  unfold moved; simp [upd_apply, h]

theorem moved_to {m : Acct → Nat} {f d : Acct} {a : Nat} (h : f ≠ d) : moved m f d a d = m d + a := by
  unfold moved; simp [upd_apply, Ne.symm h]

theorem moved_other {m : Acct → Nat} {f d x : Acct} {a : Nat} (h : x ≠ f) (h' : x ≠ d) : moved m f d a x = m x := by
  unfold moved; simp [upd_apply, h, h']

theorem moved_zero (m : Acct → Nat) (f d : Acct) : moved m f d 0 = m := by
  funext x; unfold moved; simp only [upd_apply]; split
  · rename_i h; subst h; split
    · rename_i h; subst h; omega
    · omega
  · split
    · rename_i h; subst h; omega
    · rfl

theorem total_moved {m : Acct → Nat} {n : Nat} (h : Total m n) (f d : Acct) (a : Nat) (ha : a ≤ m f) :
    Total (moved m f d a) n := by
  have hle := h.le f
  have h1 := h.upd f (m f - a)
  have h2 := h1.upd d ((upd m f (m f - a)) d + a)
  have hle2 := h1.le d
  have : n - m f + (m f - a) - upd m f (m f - a) d + (upd m f (m f - a) d + a) = n := by omega
  rw [this] at h2
  exact h2

/-- A native transfer succeeds only with sufficient funds (or trivially), and moves exactly `amount`. -/
theorem nativeTransfer_spec (env : Env) (s : State) (f d : Acct) (a : Nat) :
    (∃ e, nativeTransfer env s f d a = (s, some e)) ∨
    (nativeTransfer env s f d a = ({ s with avt := moved s.avt f d a }, none) ∧ (a ≤ s.avt f ∨ f = d) ∧
      (f ≠ d → a ≠ 0 → s.avt d + a < pow128)) ∨
    (nativeTransfer env s f d a = (s, none) ∧ f = d) := by
  unfold nativeTransfer
  by_cases h0 : a = 0 ∨ f = d
  · rw [if_pos h0]
    by_cases hfd : f = d
    · exact .inr (.inr ⟨rfl, hfd⟩)
    · have ha : a = 0 := by rcases h0 with h | h; exact h; exact absurd h hfd
      refine .inr (.inl ⟨?_, .inl (by omega), fun _ h => absurd ha h⟩)
      rw [ha, moved_zero]
  · rw [if_neg h0]
    by_cases h1 : s.avt f < a
    · rw [if_pos h1]; exact .inl ⟨_, rfl⟩
    · rw [if_neg h1]
      by_cases h2 : s.avt f - a < env.frozen f
      · rw [if_pos h2]; exact .inl ⟨_, rfl⟩
      · rw [if_neg h2]
        by_cases h3 : s.avt d + a ≥ pow128
        · rw [if_pos h3]; exact .inl ⟨_, rfl⟩
        · rw [if_neg h3]
          exact .inr (.inl ⟨rfl, .inl (by omega), fun _ _ => by omega⟩)

/-- `settle_transfer` fails without effect, or moves native funds, or moves token balances. -/
theorem settleTransfer_spec (env : Env) (s : State) (t : Addr) (f d : Acct) (a : Nat) :
    (∃ e, settleTransfer env s t f d a = (s, some e)) ∨
    (t = s.avtContract ∧ ∃ avt', settleTransfer env s t f d a = ({ s with avt := avt' }, none) ∧
        ((f = d ∧ avt' = s.avt) ∨ (f ≠ d ∧ avt' = moved s.avt f d a ∧ a ≤ s.avt f ∧ (a ≠ 0 → s.avt d + a < pow128)))) ∨
    (t ≠ s.avtContract ∧ settleTransfer env s t f d a = ({ s with bal := upd s.bal t (moved (s.bal t) f d a) }, none) ∧
        a ≤ s.bal t f ∧ (f ≠ d → s.bal t d + a < pow128)) := by
  unfold settleTransfer
  by_cases ht : t = s.avtContract
  · rw [if_pos ht]
    rcases nativeTransfer_spec env s f d a with ⟨e, he⟩ | ⟨he, hle, hov⟩ | ⟨he, hfd⟩
    · exact .inl ⟨e, he⟩
    · refine .inr (.inl ⟨ht, _, he, ?_⟩)
      by_cases hfd : f = d
      · left; refine ⟨hfd, ?_⟩
        subst hfd
        -- self transfer is a no-op in the code
        have : nativeTransfer env s f f a = (s, none) := by unfold nativeTransfer; simp
        rw [this] at he
        have := congrArg (fun r => r.1.avt) he
        simpa using this.symm
      · right; refine ⟨hfd, rfl, ?_, hov hfd⟩
        rcases hle with h | h
        · exact h
        · exact absurd h hfd
    · exact .inr (.inl ⟨ht, s.avt, he, .inl ⟨hfd, rfl⟩⟩)
  · rw [if_neg ht]
    by_cases h1 : s.bal t f < a
    · rw [if_pos h1]; exact .inl ⟨_, rfl⟩
    · rw [if_neg h1]
      by_cases h2 : f ≠ d ∧ checkedAdd128 (s.bal t d) a = none
      · rw [if_pos h2]; exact .inl ⟨_, rfl⟩
      · rw [if_neg h2]
        refine .inr (.inr ⟨ht, ?_, by omega, ?_⟩)
        · have e : ∀ g : Addr → Acct → Nat, g = upd s.bal t (moved (s.bal t) f d a) →
              (({ s with bal := g }, none) : Res) = ({ s with bal := upd s.bal t (moved (s.bal t) f d a) }, none) := by
            rintro g rfl; rfl
          apply e
          funext x
          by_cases hx : x = t
          · subst hx; simp [moved]
          · simp [upd_ne _ _ hx]
        · intro hfd
          have : checkedAdd128 (s.bal t d) a ≠ none := fun h => h2 ⟨hfd, h⟩
          unfold checkedAdd128 at this
          by_contra hc
          exact this (if_neg hc)

theorem creditAvt_spec (s : State) (w : Acct) (a : Nat) :
    (∃ e, creditAvt s w a = (s, some e)) ∨
    (creditAvt s w a = ({ s with avt := upd s.avt w (s.avt w + a) }, none) ∧ a ≠ 0 ∧ s.avt w + a < pow128) := by
  unfold creditAvt
  by_cases h : a = 0 ∨ s.avt w + a ≥ pow128
  · rw [if_pos h]; exact .inl ⟨_, rfl⟩
  · rw [if_neg h]; rw [not_or] at h; exact .inr ⟨rfl, h.1, by omega⟩

theorem creditToken_spec (s : State) (t : Addr) (w : Acct) (a : Nat) :
    (∃ e, creditToken s t w a = (s, some e)) ∨
    (creditToken s t w a = ({ s with bal := upd s.bal t (upd (s.bal t) w (s.bal t w + a)) }, none) ∧
      s.bal t w + a < pow128) := by
  unfold creditToken checkedAdd128
  by_cases h : s.bal t w + a < pow128
  · simp only [if_pos h]; exact .inr ⟨trivial, h⟩
  · simp only [if_neg h]; exact .inl ⟨_, rfl⟩

/-- `settle_lower` once it succeeds. -/
theorem settleLower_ok (env : Env) (s : State) (t : Addr) (f : Acct) (a : Nat) (t1 : Addr) (i : Nat)
    (h : (settleLower env s t f a t1 i).2 = none) :
    (t = s.avtContract ∧ a ≠ 0 ∧ a ≤ s.avt f ∧ env.frozen f ≤ s.avt f - a ∧
      (settleLower env s t f a t1 i).1 =
        { s with avt := upd s.avt f (s.avt f - a),
                 pending := upd s.pending i (some (concatLowerData ⟨t, a, t1, i, f, env.now⟩)) }) ∨
    (t ≠ s.avtContract ∧ a ≤ s.bal t f ∧
      (settleLower env s t f a t1 i).1 =
        { s with bal := upd s.bal t (upd (s.bal t) f (s.bal t f - a)),
                 pending := upd s.pending i (some (concatLowerData ⟨t, a, t1, i, f, env.now⟩)) }) := by
  unfold settleLower at h ⊢
  by_cases ht : t = s.avtContract
  · left
    simp only [if_pos ht] at h ⊢
    unfold nativeWithdraw at h ⊢
    by_cases h0 : a = 0
    · simp [h0] at h
    · by_cases h1 : s.avt f < a
      · simp [h0, h1] at h
      · by_cases h2 : s.avt f - a < env.frozen f
        · simp [h0, h1, h2] at h
        · by_cases h3 : env.bridgeOk
          · refine ⟨ht, h0, by omega, by omega, ?_⟩
            simp [h0, h1, h2, h3]
          · simp [h0, h1, h2, h3] at h
  · right
    simp only [if_neg ht] at h ⊢
    by_cases h1 : s.bal t f < a
    · simp [h1] at h
    · by_cases h3 : env.bridgeOk
      · refine ⟨ht, by omega, ?_⟩
        simp [h1, h3]
      · simp [h1, h3] at h

theorem executeLower_ok (env : Env) (s : State) (c : LowerCall) (i : Nat) (h : (executeLower env s c i).2 = none) :
    s.lowersDisabled = false ∧ (settleLower env s c.token c.sender c.amount c.t1Recipient i).2 = none ∧
    executeLower env s c i = settleLower env s c.token c.sender c.amount c.t1Recipient i := by
  unfold executeLower at h ⊢
  by_cases hd : s.lowersDisabled
  · simp [hd] at h
  · simp only [hd] at h ⊢
    exact ⟨by simp, h, rfl⟩

theorem scheduleLower_spec (env : Env) (s : State) (f : Acct) (t : Addr) (a : Nat) (t1 : Addr) :
    (∃ e, scheduleLower env s f t a t1 = (s, some e)) ∨
    (s.scheduled s.lowerNonce = none ∧ scheduleLower env s f t a t1 =
      ({ s with scheduled := upd s.scheduled s.lowerNonce (some ⟨f, t, a, t1⟩),
                lowerNonce := wrapInc32 s.lowerNonce }, none)) := by
  unfold scheduleLower
  by_cases h : (s.scheduled s.lowerNonce).isSome ∨ env.scheduleOk = false
  · rw [if_pos h]; exact .inl ⟨_, rfl⟩
  · rw [if_neg h]; rw [not_or] at h
    refine .inr ⟨by simpa using h.1, rfl⟩

theorem signedTransfer_ok (env : Env) (s : State) (o : Acct) (p : Proof) (f d : Acct) (t : Addr) (a : Nat)
    (h : (signedTransfer env s o p f d t a).2 = none) :
    o = f ∧ verifySignature env.crypto p (encodeTransfer p.relayer f d t a (s.nonce f)) = true ∧
    (settleTransfer env s t f d a).2 = none ∧
    (signedTransfer env s o p f d t a).1 =
      { (settleTransfer env s t f d a).1 with nonce := upd s.nonce f (wrapInc64 (s.nonce f)) } := by
  unfold signedTransfer at h ⊢
  by_cases h1 : o ≠ f
  · simp [h1] at h
  · simp only [ne_eq, Decidable.not_not] at h1
    subst h1
    by_cases h2 : verifySignature env.crypto p (encodeTransfer p.relayer o d t a (s.nonce o)) = true
    · simp only [ne_eq, not_true_eq_false, if_false, h2, Bool.not_true, Bool.false_eq_true] at h ⊢
      rcases settleTransfer_spec env s t o d a with ⟨e, he⟩ | ⟨_, avt', he, _⟩ | ⟨_, he, _⟩
      · simp [he] at h
      · simp [he]
      · simp [he]
    · simp [h2] at h

theorem scheduleDirectLower_ok (env : Env) (s : State) (o f : Acct) (t : Addr) (a : Nat) (t1 : Addr)
    (h : (scheduleDirectLower env s o f t a t1).2 = none) :
    o = f ∧ s.lowersDisabled = false ∧ a ≠ 0 ∧ s.scheduled s.lowerNonce = none ∧
    (scheduleDirectLower env s o f t a t1).1 =
      { s with scheduled := upd s.scheduled s.lowerNonce (some ⟨f, t, a, t1⟩), lowerNonce := wrapInc32 s.lowerNonce } := by
  unfold scheduleDirectLower at h ⊢
  by_cases h1 : o = f
  · by_cases h2 : s.lowersDisabled
    · simp [h1, h2] at h
    · by_cases h3 : a = 0
      · simp [h1, h2, h3] at h
      · rcases scheduleLower_spec env s f t a t1 with ⟨e, he⟩ | ⟨hn, he⟩
        · simp [h1, h2, h3, he] at h
        · simp [h1, h2, h3, he, hn]
  · simp [h1] at h

theorem scheduleSignedLower_ok (env : Env) (s : State) (o : Acct) (p : Proof) (f : Acct) (t : Addr) (a : Nat) (t1 : Addr)
    (h : (scheduleSignedLower env s o p f t a t1).2 = none) :
    o = f ∧ s.lowersDisabled = false ∧ a ≠ 0 ∧ s.scheduled s.lowerNonce = none ∧
    verifySignature env.crypto p (encodeLower p.relayer f t a t1 (s.nonce f)) = true ∧
    (scheduleSignedLower env s o p f t a t1).1 =
      { s with scheduled := upd s.scheduled s.lowerNonce (some ⟨f, t, a, t1⟩), lowerNonce := wrapInc32 s.lowerNonce,
               nonce := upd s.nonce f (wrapInc64 (s.nonce f)) } := by
  unfold scheduleSignedLower at h ⊢
  by_cases h1 : o = f
  · subst h1
    by_cases h2 : s.lowersDisabled
    · simp [h2] at h
    · by_cases h3 : a = 0
      · simp [h2, h3] at h
      · by_cases h4 : verifySignature env.crypto p (encodeLower p.relayer o t a t1 (s.nonce o)) = true
        · rcases scheduleLower_spec env s o t a t1 with ⟨e, he⟩ | ⟨hn, he⟩
          · simp [h2, h3, h4, he] at h
          · simp [h2, h3, h4, he, hn]
        · simp [h2, h3, h4] at h
  · simp [h1] at h

theorem regenerate_ok (env : Env) (s : State) (i : Nat) (h : (regenerateLowerProof env s i).2 = none) :
    s.lowersDisabled = false ∧
    ((∃ ps, s.ready i = some ps ∧ (regenerateLowerProof env s i).1 =
        { s with ready := upd s.ready i none, pending := upd s.pending i (some ps) }) ∨
     (∃ ps, s.ready i = none ∧ s.failed i = some ps ∧ (regenerateLowerProof env s i).1 =
        { s with failed := upd s.failed i none, pending := upd s.pending i (some ps) })) := by
  unfold regenerateLowerProof at h ⊢
  by_cases hd : s.lowersDisabled
  · simp [hd] at h
  · refine ⟨by simpa using hd, ?_⟩
    cases hr : s.ready i with
    | some ps =>
      left; refine ⟨ps, rfl, ?_⟩
      by_cases hb : env.bridgeOk <;> simp [hd, hr, regenerateProof, hb] at h ⊢
    | none =>
      cases hf : s.failed i with
      | some ps =>
        right; refine ⟨ps, rfl, rfl, ?_⟩
        by_cases hb : env.bridgeOk <;> simp [hd, hr, hf, regenerateProof, hb] at h ⊢
      | none => simp [hd, hr, hf] at h

/-- Outcome of a proxied call that succeeds: it is the inner call dispatched as the proof's signer. -/
theorem proxy_ok (env : Env) (s : State) (r : Acct) (c : ProxyCall) (h : (proxy env s r c).2 = none) :
    (∃ p f d t a, c = .transfer p f d t a ∧ r = p.relayer ∧ (signedTransfer env s p.signer p f d t a).2 = none ∧
        (proxy env s r c) = signedTransfer env s p.signer p f d t a) ∨
    (∃ p f t a t1, c = .lower p f t a t1 ∧ r = p.relayer ∧ (scheduleSignedLower env s p.signer p f t a t1).2 = none ∧
        (proxy env s r c) = scheduleSignedLower env s p.signer p f t a t1) := by
  cases c with
  | transfer p f d t a =>
    left; refine ⟨p, f, d, t, a, rfl, ?_⟩
    simp only [proxy] at h ⊢
    by_cases hr : r ≠ p.relayer
    · simp [hr] at h
    · simp only [hr, if_false, transactional_err] at h ⊢
      exact ⟨by simpa using hr, h, transactional_none h⟩
  | lower p f t a t1 =>
    right; refine ⟨p, f, t, a, t1, rfl, ?_⟩
    simp only [proxy] at h ⊢
    by_cases hr : r ≠ p.relayer
    · simp [hr] at h
    · simp only [hr, if_false, transactional_err] at h ⊢
      exact ⟨by simpa using hr, h, transactional_none h⟩
  | unsupported => simp [proxy] at h

end Verif.TokenManager
