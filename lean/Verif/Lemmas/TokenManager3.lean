import Verif.Lemmas.TokenManager2

namespace Verif.TokenManager
open Verif.Lower

/-- Effect of a successful `settle_transfer`. -/
def Moves (s : State) (t : Addr) (f d : Acct) (a : Nat) (bal' : Addr → Acct → Nat) (avt' : Acct → Nat) : Prop :=
  (t = s.avtContract ∧ bal' = s.bal ∧
    ((f = d ∧ avt' = s.avt) ∨ (f ≠ d ∧ avt' = moved s.avt f d a ∧ a ≤ s.avt f ∧ (a ≠ 0 → s.avt d + a < pow128)))) ∨
  (t ≠ s.avtContract ∧ avt' = s.avt ∧ bal' = upd s.bal t (moved (s.bal t) f d a) ∧ a ≤ s.bal t f ∧
    (f ≠ d → s.bal t d + a < pow128))

theorem settleTransfer_ok (env : Env) (s : State) (t : Addr) (f d : Acct) (a : Nat)
    (h : (settleTransfer env s t f d a).2 = none) :
    ∃ bal' avt', settleTransfer env s t f d a = ({ s with bal := bal', avt := avt' }, none) ∧ Moves s t f d a bal' avt' := by
  rcases settleTransfer_spec env s t f d a with ⟨e, he⟩ | ⟨ht, avt', he, hc⟩ | ⟨ht, he, h1, h2⟩
  · rw [he] at h; cases h
  · exact ⟨s.bal, avt', he, .inl ⟨ht, rfl, hc⟩⟩
  · exact ⟨_, s.avt, he, .inr ⟨ht, rfl, rfl, h1, h2⟩⟩

/-- Effect of a successful credit of a token (native or not). -/
def Credits (s : State) (t : Addr) (w : Acct) (a : Nat) (bal' : Addr → Acct → Nat) (avt' : Acct → Nat) : Prop :=
  (t = s.avtContract ∧ bal' = s.bal ∧ avt' = upd s.avt w (s.avt w + a) ∧ s.avt w + a < pow128) ∨
  (t ≠ s.avtContract ∧ avt' = s.avt ∧ bal' = upd s.bal t (upd (s.bal t) w (s.bal t w + a)) ∧ s.bal t w + a < pow128)

/-- Effect of a successful burn of a token (native or not). -/
def Burns (env : Env) (s : State) (t : Addr) (f : Acct) (a : Nat) (bal' : Addr → Acct → Nat) (avt' : Acct → Nat) : Prop :=
  (t = s.avtContract ∧ bal' = s.bal ∧ avt' = upd s.avt f (s.avt f - a) ∧ a ≠ 0 ∧ a ≤ s.avt f ∧
    env.frozen f ≤ s.avt f - a) ∨
  (t ≠ s.avtContract ∧ avt' = s.avt ∧ bal' = upd s.bal t (upd (s.bal t) f (s.bal t f - a)) ∧ a ≤ s.bal t f)

/-- The step is a signed transfer (direct or relayed) of exactly these parameters. -/
def IsTransfer (st : Step) (p : Proof) (f d : Acct) (t : Addr) (a : Nat) : Prop :=
  st = .signedTransfer f p f d t a ∨ (p.signer = f ∧ st = .proxy p.relayer (.transfer p f d t a))

/-- The step is a signed lower request (direct or relayed) of exactly these parameters. -/
def IsSignedLower (st : Step) (p : Proof) (f : Acct) (t : Addr) (a : Nat) (t1 : Addr) : Prop :=
  st = .scheduleSignedLower f p f t a t1 ∨ (p.signer = f ∧ st = .proxy p.relayer (.lower p f t a t1))

/-- The exhaustive list of things a step can do. -/
inductive View (env : Env) (s : State) : Step → Res → Prop
  | fail (st : Step) (e : Err) : View env s st (s, some e)
  | transfer (st p f d t a bal' avt') : IsTransfer st p f d t a →
      verifySignature env.crypto p (encodeTransfer p.relayer f d t a (s.nonce f)) = true →
      Moves s t f d a bal' avt' →
      View env s st ({ s with bal := bal', avt := avt', nonce := upd s.nonce f (wrapInc64 (s.nonce f)) }, none)
  | fee (t a f d bal' avt') : Moves s t f d a bal' avt' →
      View env s (.payFee t a f d) ({ s with bal := bal', avt := avt' }, none)
  | feeTreasury (a f bal' avt') : Moves s s.avtContract f env.treasury a bal' avt' →
      View env s (.payTreasury a f) ({ s with bal := bal', avt := avt' }, none)
  | treasury (r a avt') : a ≠ 0 → Moves s s.avtContract env.treasury r a s.bal avt' →
      View env s (.rootTreasury r a) ({ s with avt := avt' }, none)
  | direct (f t a t1) : s.lowersDisabled = false → a ≠ 0 → s.scheduled s.lowerNonce = none →
      View env s (.scheduleDirectLower f f t a t1)
        ({ s with scheduled := upd s.scheduled s.lowerNonce (some ⟨f, t, a, t1⟩), lowerNonce := wrapInc32 s.lowerNonce }, none)
  | signedLower (st p f t a t1) : IsSignedLower st p f t a t1 → s.lowersDisabled = false → a ≠ 0 →
      s.scheduled s.lowerNonce = none →
      verifySignature env.crypto p (encodeLower p.relayer f t a t1 (s.nonce f)) = true →
      View env s st
        ({ s with scheduled := upd s.scheduled s.lowerNonce (some ⟨f, t, a, t1⟩), lowerNonce := wrapInc32 s.lowerNonce,
                  nonce := upd s.nonce f (wrapInc64 (s.nonce f)) }, none)
  | regenReady (q i ps) : s.lowersDisabled = false → s.ready i = some ps →
      View env s (.regenerateLowerProof q i)
        ({ s with ready := upd s.ready i none, pending := upd s.pending i (some ps) }, none)
  | regenFailed (q i ps) : s.lowersDisabled = false → s.ready i = none → s.failed i = some ps →
      View env s (.regenerateLowerProof q i)
        ({ s with failed := upd s.failed i none, pending := upd s.pending i (some ps) }, none)
  | rootLower (c i bal' avt') : s.lowersDisabled = false → Burns env s c.token c.sender c.amount bal' avt' →
      View env s (.rootExecuteLower c i)
        ({ s with bal := bal', avt := avt', pending := upd s.pending i (some (concatLowerData
              ⟨c.token, c.amount, c.t1Recipient, i, c.sender, env.now⟩)) }, none)
  | schedLower (c i bal' avt') : s.scheduled i = some c → s.lowersDisabled = false →
      Burns env s c.token c.sender c.amount bal' avt' →
      View env s (.dispatchScheduled i)
        ({ s with scheduled := upd s.scheduled i none, bal := bal', avt := avt', pending := upd s.pending i (some (concatLowerData
              ⟨c.token, c.amount, c.t1Recipient, i, c.sender, env.now⟩)) }, none)
  | schedFail (c i e) : s.scheduled i = some c →
      View env s (.dispatchScheduled i) ({ s with scheduled := upd s.scheduled i none }, some e)
  | schedNone (i) : s.scheduled i = none → View env s (.dispatchScheduled i) (s, none)
  | setPeriod (n) : View env s (.rootSetPeriod n) ({ s with lowerPeriod := n }, none)
  | toggle (e) : View env s (.rootToggleLowering e) ({ s with lowersDisabled := !e }, none)
  | setNative (a) : View env s (.rootSetNative a) ({ s with avtContract := a }, none)
  | cancel (i) : View env s (.rootCancelScheduled i) ({ s with scheduled := upd s.scheduled i none }, none)
  | lift (t w a bal' avt') : env.eventKnown = true → a ≠ 0 → Credits s t w a bal' avt' →
      View env s (.event (.lifted t w a)) ({ s with bal := bal', avt := avt' }, none)
  | ifaceLift (t w a bal' avt') : env.eventKnown = true → a ≠ 0 → Credits s t w a bal' avt' →
      View env s (.interfaceLift t w a) ({ s with bal := bal', avt := avt' }, none)
  | deposit (t w a) : s.bal t w + a < pow128 →
      View env s (.depositTokens t w a) ({ s with bal := upd s.bal t (upd (s.bal t) w (s.bal t w + a)) }, none)
  | growth (a p avt' ok) : env.eventKnown = true → a ≠ 0 → perbillMul env.growthPct a ≠ 0 →
      s.avt env.treasury + perbillMul env.growthPct a < pow128 →
      env.growthHandler (a - perbillMul env.growthPct a) p
        (upd s.avt env.treasury (s.avt env.treasury + perbillMul env.growthPct a)) = (avt', ok) →
      View env s (.event (.growthLifted a p)) ({ s with avt := avt' }, if ok then none else some .growthHandler)
  | claim (i ps) : env.eventKnown = true → s.ready i = some ps →
      View env s (.event (.lowerClaimed i)) ({ s with ready := upd s.ready i none }, none)
  | revert (t w a i ps bal' avt') : env.eventKnown = true → s.ready i = some ps → a ≠ 0 → Credits s t w a bal' avt' →
      View env s (.event (.lowerReverted t w a i)) ({ s with ready := upd s.ready i none, bal := bal', avt := avt' }, none)
  | revertFail (t w a i ps e) : env.eventKnown = true → s.ready i = some ps →
      View env s (.event (.lowerReverted t w a i)) ({ s with ready := upd s.ready i none }, some e)
  | otherEvent : View env s (.event .other) (s, none)
  | proofIgnored (i c d) : View env s (.lowerProofResult i c d) (s, none)
  | proofReady (i len ps) : s.pending i = some ps → len ≤ lowerDataLimit →
      View env s (.lowerProofResult i true (some len))
        ({ s with pending := upd s.pending i none, ready := upd s.ready i (some ps) }, none)
  | proofTooLong (i len ps) : s.pending i = some ps → lowerDataLimit < len →
      View env s (.lowerProofResult i true (some len)) ({ s with pending := upd s.pending i none },
        some .lowerDataLimitExceeded)
  | proofFailed (i ps) : s.pending i = some ps →
      View env s (.lowerProofResult i true none)
        ({ s with pending := upd s.pending i none, failed := upd s.failed i (some ps) }, none)
  | external (avt') : View env s (.external avt') ({ s with avt := avt' }, none)

theorem credit_view {s : State} {t : Addr} {w : Acct} {a : Nat} (_hne : a ≠ 0) :
    let r := if t = s.avtContract then creditAvt s w a else creditToken s t w a
    (∃ e, r = (s, some e)) ∨ ∃ bal' avt', Credits s t w a bal' avt' ∧ r = ({ s with bal := bal', avt := avt' }, none) := by
  intro r
  by_cases ht : t = s.avtContract
  · have hr : r = creditAvt s w a := if_pos ht
    rcases creditAvt_spec s w a with ⟨e, he⟩ | ⟨he, _, ho⟩
    · exact .inl ⟨e, hr.trans he⟩
    · exact .inr ⟨s.bal, _, .inl ⟨ht, rfl, rfl, ho⟩, hr.trans he⟩
  · have hr : r = creditToken s t w a := if_neg ht
    rcases creditToken_spec s t w a with ⟨e, he⟩ | ⟨he, ho⟩
    · exact .inl ⟨e, hr.trans he⟩
    · exact .inr ⟨_, s.avt, .inr ⟨ht, rfl, rfl, ho⟩, hr.trans he⟩

theorem burn_view {env : Env} {s : State} {t : Addr} {f : Acct} {a : Nat} {t1 : Addr} {i : Nat}
    (h : (settleLower env s t f a t1 i).2 = none) :
    ∃ bal' avt', Burns env s t f a bal' avt' ∧ (settleLower env s t f a t1 i) =
        ({ s with bal := bal', avt := avt', pending := upd s.pending i (some (concatLowerData ⟨t, a, t1, i, f, env.now⟩)) }, none) := by
  rcases settleLower_ok env s t f a t1 i h with ⟨ht, h0, h1, h2, he⟩ | ⟨ht, h1, he⟩
  · exact ⟨s.bal, _, .inl ⟨ht, rfl, rfl, h0, h1, h2⟩, Prod.ext he h⟩
  · exact ⟨_, s.avt, .inr ⟨ht, rfl, rfl, h1⟩, Prod.ext he h⟩

theorem transfer_view (env : Env) (s : State) (o : Acct) (p : Proof) (f d : Acct) (t : Addr) (a : Nat) (st : Step)
    (hst : o = f → IsTransfer st p f d t a) (h : (signedTransfer env s o p f d t a).2 = none) :
    View env s st (signedTransfer env s o p f d t a) := by
  obtain ⟨ho, hv, hs, he⟩ := signedTransfer_ok env s o p f d t a h
  obtain ⟨bal', avt', hr, hm⟩ := settleTransfer_ok env s t f d a hs
  have : signedTransfer env s o p f d t a =
      ({ s with bal := bal', avt := avt', nonce := upd s.nonce f (wrapInc64 (s.nonce f)) }, none) := by
    apply Prod.ext
    · rw [he, hr]
    · exact h
  rw [this]
  exact .transfer st p f d t a bal' avt' (hst ho) hv hm

theorem signedLower_view (env : Env) (s : State) (o : Acct) (p : Proof) (f : Acct) (t : Addr) (a : Nat) (t1 : Addr)
    (st : Step) (hst : o = f → IsSignedLower st p f t a t1) (h : (scheduleSignedLower env s o p f t a t1).2 = none) :
    View env s st (scheduleSignedLower env s o p f t a t1) := by
  obtain ⟨ho, hd, h0, hn, hv, he⟩ := scheduleSignedLower_ok env s o p f t a t1 h
  rw [show scheduleSignedLower env s o p f t a t1 = (_, none) from Prod.ext he h]
  exact .signedLower st p f t a t1 (hst ho) hd h0 hn hv

theorem tx_view {env : Env} {s : State} {st : Step} {r : Res} (h : r.2 = none → View env s st r) :
    View env s st (transactional s r) := by
  rcases transactional_cases s r with ⟨h1, h2⟩ | ⟨e, _, h2⟩
  · rw [h2]; exact h h1
  · rw [h2]; exact .fail st e

/-- Every step does one of the things listed in `View`. -/
theorem step_view (env : Env) (s : State) (st : Step) : View env s st (step env s st) := by
  cases st with
  | proxy r c =>
    refine tx_view (fun h => ?_)
    rcases proxy_ok env s r c h with ⟨p, f, d, t, a, rfl, hr, hok, he⟩ | ⟨p, f, t, a, t1, rfl, hr, hok, he⟩
    · rw [he]
      exact transfer_view env s p.signer p f d t a _ (fun ho => .inr ⟨ho, by rw [hr]⟩) hok
    · rw [he]
      exact signedLower_view env s p.signer p f t a t1 _ (fun ho => .inr ⟨ho, by rw [hr]⟩) hok
  | signedTransfer o p f d t a =>
    exact tx_view (fun h => transfer_view env s o p f d t a _ (fun ho => .inl (by rw [ho])) h)
  | scheduleDirectLower o f t a t1 =>
    refine tx_view (fun h => ?_)
    obtain ⟨ho, hd, h0, hn, he⟩ := scheduleDirectLower_ok env s o f t a t1 h
    rw [show scheduleDirectLower env s o f t a t1 = (_, none) from Prod.ext he h, ho]
    exact .direct f t a t1 hd h0 hn
  | scheduleSignedLower o p f t a t1 =>
    exact tx_view (fun h => signedLower_view env s o p f t a t1 _ (fun ho => .inl (by rw [ho])) h)
  | regenerateLowerProof q i =>
    refine tx_view (fun h => ?_)
    obtain ⟨hd, ⟨ps, hr, he⟩ | ⟨ps, hr, hf, he⟩⟩ := regenerate_ok env s i h
    · rw [show regenerateLowerProof env s i = (_, none) from Prod.ext he h]
      exact .regenReady q i ps hd hr
    · rw [show regenerateLowerProof env s i = (_, none) from Prod.ext he h]
      exact .regenFailed q i ps hd hr hf
  | rootTreasury r a =>
    refine tx_view (fun h => ?_)
    unfold transferFromTreasury at h ⊢
    by_cases h0 : a = 0
    · simp [h0] at h
    · simp only [if_neg h0] at h ⊢
      have hs : settleTransfer env s s.avtContract env.treasury r a = nativeTransfer env s env.treasury r a := by
        unfold settleTransfer; simp
      rw [← hs] at h ⊢
      obtain ⟨bal', avt', hr, hm⟩ := settleTransfer_ok env s _ _ _ _ h
      have hb : bal' = s.bal := by
        rcases hm with ⟨_, hb, _⟩ | ⟨hne, _⟩
        · exact hb
        · exact absurd rfl hne
      subst hb
      rw [hr]
      exact .treasury r a avt' h0 hm
  | rootExecuteLower c i =>
    refine tx_view (fun h => ?_)
    obtain ⟨hd, hs, he⟩ := executeLower_ok env s c i h
    obtain ⟨bal', avt', hb, hr⟩ := burn_view hs
    rw [he, hr]
    exact .rootLower c i bal' avt' hd hb
  | rootSetPeriod n => exact .setPeriod n
  | rootToggleLowering e => exact .toggle e
  | rootSetNative a =>
    refine tx_view (fun h => ?_)
    unfold setNativeTokenEthAddress at h ⊢
    by_cases h0 : a = Vector.replicate 20 0
    · simp [h0] at h
    · rw [if_neg h0]; exact .setNative a
  | rootCancelScheduled i => exact .cancel i
  | dispatchScheduled i =>
    simp only [step, dispatchScheduled]
    cases hc : s.scheduled i with
    | none => exact .schedNone i hc
    | some c =>
      simp only
      rcases transactional_cases { s with scheduled := upd s.scheduled i none }
        (executeLower env { s with scheduled := upd s.scheduled i none } c i) with ⟨h1, h2⟩ | ⟨e, _, h2⟩
      · rw [h2]
        obtain ⟨hd, hs, he⟩ := executeLower_ok _ _ _ _ h1
        obtain ⟨bal', avt', hb, hr⟩ := burn_view hs
        rw [he, hr]
        exact .schedLower c i bal' avt' hc hd hb
      · rw [h2]; exact .schedFail c i e hc
  | event d =>
    simp only [step]
    cases d with
    | lifted t w a =>
      simp only [processedEventHandler, processLift]
      by_cases hk : env.eventKnown
      · by_cases h0 : a = 0
        · simp only [hk, h0]; exact .fail _ _
        · simp only [hk, h0, Bool.not_true, if_false, Bool.false_eq_true]
          rcases credit_view (s := s) (t := t) (w := w) h0 with ⟨e, he⟩ | ⟨bal', avt', hc, he⟩
          · rw [he]; exact .fail _ e
          · rw [he]; exact .lift t w a bal' avt' hk h0 hc
      · simp only [hk]; exact .fail _ _
    | growthLifted a p =>
      simp only [processedEventHandler, processGrowthLift]
      by_cases hk : env.eventKnown
      · by_cases h0 : a = 0
        · simp only [hk, h0]; exact .fail _ _
        · simp only [hk, h0, Bool.not_true, if_false, Bool.false_eq_true]
          rcases creditAvt_spec s env.treasury (perbillMul env.growthPct a) with ⟨e, he⟩ | ⟨he, hne, ho⟩
          · rw [he]; exact .fail _ e
          · rw [he]
            exact .growth a p _ _ hk h0 hne ho rfl
      · simp only [hk]; exact .fail _ _
    | lowerClaimed i =>
      simp only [processedEventHandler, processLowerClaim, removeUsedLower]
      by_cases hk : env.eventKnown
      · cases hr : s.ready i with
        | none => simp only [hk]; exact .fail _ _
        | some ps => simp only [hk]; exact .claim i ps hk hr
      · simp only [hk]; exact .fail _ _
    | lowerReverted t w a i =>
      simp only [processedEventHandler, processLowerReverted, removeUsedLower]
      by_cases hk : env.eventKnown
      · cases hr : s.ready i with
        | none => simp only [hk]; exact .fail _ _
        | some ps =>
          simp only [hk, Bool.not_true, if_false, Bool.false_eq_true]
          by_cases h0 : a = 0
          · rw [if_pos h0]; exact .revertFail t w a i ps _ hk hr
          · rw [if_neg h0]
            rcases credit_view (s := { s with ready := upd s.ready i none }) (t := t) (w := w) h0 with
              ⟨e, he⟩ | ⟨bal', avt', hc, he⟩
            · simp only at he; rw [he]; exact .revertFail t w a i ps e hk hr
            · simp only at he; rw [he]; exact .revert t w a i ps bal' avt' hk hr h0 hc
      · simp only [hk]; exact .fail _ _
    | other => exact .otherEvent
  | lowerProofResult i c d =>
    simp only [step, processLowerProofResult]
    cases hp : s.pending i with
    | none => exact .proofIgnored i c d
    | some ps =>
      cases c with
      | false => exact .proofIgnored i false d
      | true =>
        cases d with
        | none => exact .proofFailed i ps hp
        | some len =>
          by_cases hl : len ≤ lowerDataLimit
          · simp only [hl]; exact .proofReady i len ps hp hl
          · simp only [hl]; exact .proofTooLong i len ps hp (by omega)
  | payFee t a p r =>
    refine tx_view (fun h => ?_)
    obtain ⟨bal', avt', hr, hm⟩ := settleTransfer_ok env s _ _ _ _ h
    rw [hr]; exact .fee t a p r bal' avt' hm
  | payTreasury a p =>
    refine tx_view (fun h => ?_)
    obtain ⟨bal', avt', hr, hm⟩ := settleTransfer_ok env s _ _ _ _ h
    rw [hr]; exact .feeTreasury a p bal' avt' hm
  | interfaceLift t w a =>
    simp only [step, processLift]
    by_cases hk : env.eventKnown
    · by_cases h0 : a = 0
      · simp only [hk, h0]; exact .fail _ _
      · simp only [hk, h0, Bool.not_true, if_false, Bool.false_eq_true]
        rcases credit_view (s := s) (t := t) (w := w) h0 with ⟨e, he⟩ | ⟨bal', avt', hc, he⟩
        · rw [he]; exact .fail _ e
        · rw [he]; exact .ifaceLift t w a bal' avt' hk h0 hc
    · simp only [hk]; exact .fail _ _
  | depositTokens t w a =>
    simp only [step]
    rcases creditToken_spec s t w a with ⟨e, he⟩ | ⟨he, ho⟩
    · rw [he]; exact .fail _ e
    · rw [he]; exact .deposit t w a ho
  | external avt' => exact .external avt'

end Verif.TokenManager
