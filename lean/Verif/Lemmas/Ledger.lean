import Verif.Props.LedgerSpec
import Verif.Lemmas.TokenManager3
import Verif.Lemmas.Encoding
import Verif.Props.StakingCover
import Verif.Props.StakingPayout

namespace Verif.TokenManager

/-! ### What a step of the token manager does to native balances -/

/-- The effect on native balances. -/
inductive AvtEff (env : Env) (s : State) (st : Step) (r : Res) : Prop
  | same (h : r.1.avt = s.avt) (hi : createdBy s.avtContract r.2.isNone st = 0) (ho : destroyedBy s r.2.isNone st = 0)
  | moved (f d : Acct) (a : Nat) (hp : payerOf env.treasury s st = some f) (ne : f ≠ d) (le : a ≤ s.avt f)
      (fr : env.frozen f ≤ s.avt f - a) (h : r.1.avt = moved s.avt f d a)
      (hi : createdBy s.avtContract r.2.isNone st = 0) (ho : destroyedBy s r.2.isNone st = 0)
  | credit (w : Acct) (a : Nat) (h : r.1.avt = upd s.avt w (s.avt w + a))
      (hi : createdBy s.avtContract r.2.isNone st = a) (ho : destroyedBy s r.2.isNone st = 0)
  | burn (f : Acct) (a : Nat) (hp : payerOf env.treasury s st = some f) (le : a ≤ s.avt f) (fr : env.frozen f ≤ s.avt f - a)
      (h : r.1.avt = upd s.avt f (s.avt f - a))
      (hi : createdBy s.avtContract r.2.isNone st = 0) (ho : destroyedBy s r.2.isNone st = a)

/-- The move of native tokens by a transfer. -/
def AvtMove (env : Env) (s : State) (f : Acct) (r : Res) : Prop :=
  r.1.avt = s.avt ∨ ∃ d a, f ≠ d ∧ a ≤ s.avt f ∧ env.frozen f ≤ s.avt f - a ∧ r.1.avt = moved s.avt f d a

theorem nativeTransfer_move (env : Env) (s : State) (f d : Acct) (a : Nat) : AvtMove env s f (nativeTransfer env s f d a) := by
  unfold nativeTransfer
  by_cases h1 : a = 0 ∨ f = d
  · rw [if_pos h1]; exact .inl rfl
  rw [if_neg h1]
  by_cases h2 : s.avt f < a
  · rw [if_pos h2]; exact .inl rfl
  rw [if_neg h2]
  by_cases h3 : s.avt f - a < env.frozen f
  · rw [if_pos h3]; exact .inl rfl
  rw [if_neg h3]
  by_cases h4 : s.avt d + a ≥ pow128
  · rw [if_pos h4]; exact .inl rfl
  rw [if_neg h4]
  exact .inr ⟨d, a, fun h => h1 (.inr h), by omega, by omega, rfl⟩

theorem settleTransfer_move (env : Env) (s : State) (t : Addr) (f d : Acct) (a : Nat) :
    AvtMove env s f (settleTransfer env s t f d a) := by
  unfold settleTransfer
  by_cases ht : t = s.avtContract
  · rw [if_pos ht]; exact nativeTransfer_move env s f d a
  rw [if_neg ht]
  by_cases h1 : s.bal t f < a
  · rw [if_pos h1]; exact .inl rfl
  rw [if_neg h1]
  by_cases h2 : f ≠ d ∧ checkedAdd128 (s.bal t d) a = none
  · rw [if_pos h2]; exact .inl rfl
  rw [if_neg h2]
  exact .inl rfl

theorem AvtMove.tx {env : Env} {s : State} {f : Acct} {r : Res} (h : AvtMove env s f r) : AvtMove env s f (transactional s r) := by
  rcases transactional_cases s r with ⟨_, h2⟩ | ⟨e, _, h2⟩
  · rw [h2]; exact h
  · rw [h2]; exact .inl rfl

theorem signedTransfer_move (env : Env) (s : State) (o : Acct) (p : Proof) (f d : Acct) (t : Addr) (a : Nat) :
    AvtMove env s f (signedTransfer env s o p f d t a) := by
  unfold signedTransfer
  by_cases h1 : o ≠ f
  · rw [if_pos h1]; exact .inl rfl
  rw [if_neg h1]
  by_cases h2 : (!verifySignature env.crypto p (encodeTransfer p.relayer f d t a (s.nonce o))) = true
  · rw [if_pos h2]; exact .inl rfl
  rw [if_neg h2]
  have := settleTransfer_move env s t f d a
  cases he : settleTransfer env s t f d a with
  | mk s1 e =>
    rw [he] at this
    cases e <;> exact this

theorem AvtMove.eff {env : Env} {s : State} {f : Acct} {st : Step} {r : Res} (h : AvtMove env s f r)
    (hp : payerOf env.treasury s st = some f) (hi : createdBy s.avtContract r.2.isNone st = 0)
    (ho : destroyedBy s r.2.isNone st = 0) : AvtEff env s st r := by
  rcases h with h | ⟨d, a, h1, h2, h3, h4⟩
  · exact .same h hi ho
  · exact .moved f d a hp h1 h2 h3 h4 hi ho

theorem createdBy_false (native : Addr) (st : Step) : createdBy native false st = 0 := by
  cases st with
  | event d => cases d <;> simp [createdBy]
  | _ => simp [createdBy]

theorem destroyedBy_false (s : State) (st : Step) : destroyedBy s false st = 0 := by
  cases st with
  | dispatchScheduled i => cases h : s.scheduled i <;> simp [destroyedBy, h]
  | _ => simp [destroyedBy]

theorem credits_eff {env : Env} {s s' : State} {st : Step} {t : Addr} {w : Acct} {a : Nat} {bal' : Addr → Acct → Nat} {avt' : Acct → Nat}
    (hc : Credits s t w a bal' avt') (hs : s'.avt = avt') (hi : createdBy s.avtContract true st = if t = s.avtContract then a else 0)
    (ho : destroyedBy s true st = 0) : AvtEff env s st (s', none) := by
  rcases hc with ⟨ht, _, h, _⟩ | ⟨ht, h, _, _⟩
  · rw [if_pos ht] at hi
    exact .credit w a (hs.trans h) hi ho
  · rw [if_neg ht] at hi
    exact .same (hs.trans h) hi ho

theorem burns_eff {env : Env} {s s' : State} {st : Step} {t : Addr} {f : Acct} {a : Nat} {bal' : Addr → Acct → Nat} {avt' : Acct → Nat}
    (hc : Burns env s t f a bal' avt') (hs : s'.avt = avt') (hp : payerOf env.treasury s st = some f)
    (ho : destroyedBy s true st = if t = s.avtContract then a else 0)
    (hi : createdBy s.avtContract true st = 0) : AvtEff env s st (s', none) := by
  rcases hc with ⟨ht, _, h, _, h1, h2⟩ | ⟨ht, h, _, _⟩
  · rw [if_pos ht] at ho
    exact .burn f a hp h1 h2 (hs.trans h) hi ho
  · rw [if_neg ht] at ho
    exact .same (hs.trans h) hi ho

/-- Every step but a growth lift. -/
theorem step_avt (env : Env) (s : State) (st : Step) (hg : ∀ a p, st ≠ .event (.growthLifted a p)) (hx : ∀ v, st ≠ .external v) :
    AvtEff env s st (step env s st) := by
  have hv := step_view env s st
  cases st with
  | proxy r c =>
    cases c with
    | transfer p f d t a =>
      refine AvtMove.eff (f := f) (AvtMove.tx ?_) rfl rfl rfl
      unfold proxy
      by_cases h : r ≠ p.relayer
      · simp only [if_pos h]; exact .inl rfl
      · simp only [if_neg h]; exact (signedTransfer_move env s p.signer p f d t a).tx
    | lower p f t a t1 =>
      generalize step env s _ = r' at hv
      cases hv with
      | fail _ e => exact .same rfl rfl rfl
      | transfer _ p' f' d' t' a' bal' avt' h => rcases h with h | ⟨_, h⟩ <;> cases h
      | signedLower => exact .same rfl rfl rfl
    | unsupported => exact .same rfl rfl rfl
  | signedTransfer o p f d t a => exact AvtMove.eff (f := f) (signedTransfer_move env s o p f d t a).tx rfl rfl rfl
  | payFee t a p r => exact AvtMove.eff (f := p) (settleTransfer_move env s t p r a).tx rfl rfl rfl
  | payTreasury a p => exact AvtMove.eff (f := p) (settleTransfer_move env s s.avtContract p env.treasury a).tx rfl rfl rfl
  | rootTreasury r a =>
    refine AvtMove.eff (f := env.treasury) (AvtMove.tx ?_) rfl rfl rfl
    unfold transferFromTreasury
    by_cases h : a = 0
    · rw [if_pos h]; exact .inl rfl
    · rw [if_neg h]; exact nativeTransfer_move env s _ _ _
  | scheduleDirectLower o f t a t1 =>
    generalize step env s _ = r' at hv
    cases hv with
    | fail _ e => exact .same rfl rfl rfl
    | transfer _ p' f' d' t' a' bal' avt' h => rcases h with h | ⟨_, h⟩ <;> cases h
    | direct => exact .same rfl rfl rfl
    | signedLower => exact .same rfl rfl rfl
  | scheduleSignedLower o p f t a t1 =>
    generalize step env s _ = r' at hv
    cases hv with
    | fail _ e => exact .same rfl rfl rfl
    | transfer _ p' f' d' t' a' bal' avt' h => rcases h with h | ⟨_, h⟩ <;> cases h
    | signedLower => exact .same rfl rfl rfl
  | regenerateLowerProof q i =>
    generalize step env s _ = r' at hv
    cases hv with
    | fail _ e => exact .same rfl rfl rfl
    | transfer _ p' f' d' t' a' bal' avt' h => rcases h with h | ⟨_, h⟩ <;> cases h
    | signedLower => exact .same rfl rfl rfl
    | regenReady => exact .same rfl rfl rfl
    | regenFailed => exact .same rfl rfl rfl
  | rootExecuteLower c i =>
    generalize step env s _ = r' at hv
    cases hv with
    | fail _ e => exact .same rfl rfl (destroyedBy_false ..)
    | transfer _ p' f' d' t' a' bal' avt' h => rcases h with h | ⟨_, h⟩ <;> cases h
    | signedLower _ p' f' t' a' t1' h => rcases h with h | ⟨_, h⟩ <;> cases h
    | rootLower _ _ bal' avt' hd hb => exact burns_eff hb rfl rfl (by simp [destroyedBy]) rfl
  | rootSetPeriod n => exact .same rfl rfl rfl
  | rootToggleLowering e => exact .same rfl rfl rfl
  | rootSetNative a =>
    generalize step env s _ = r' at hv
    cases hv with
    | fail _ e => exact .same rfl rfl rfl
    | transfer _ p' f' d' t' a' bal' avt' h => rcases h with h | ⟨_, h⟩ <;> cases h
    | signedLower => exact .same rfl rfl rfl
    | setNative => exact .same rfl rfl rfl
  | rootCancelScheduled i => exact .same rfl rfl rfl
  | dispatchScheduled i =>
    generalize step env s _ = r' at hv
    cases hv with
    | fail _ e => exact .same rfl rfl (destroyedBy_false ..)
    | transfer _ p' f' d' t' a' bal' avt' h => rcases h with h | ⟨_, h⟩ <;> cases h
    | signedLower _ p' f' t' a' t1' h => rcases h with h | ⟨_, h⟩ <;> cases h
    | schedLower c _ bal' avt' hc hd hb =>
      exact burns_eff hb rfl (by simp [payerOf, hc]) (by simp [destroyedBy, hc]) rfl
    | schedFail c _ e hc => exact .same rfl rfl (destroyedBy_false ..)
    | schedNone _ hc => exact .same rfl rfl (by simp [destroyedBy, hc])
  | event d =>
    cases d with
    | lifted t w a =>
      generalize step env s _ = r' at hv
      cases hv with
      | fail _ e => exact .same rfl (createdBy_false ..) rfl
      | transfer _ p' f' d' t' a' bal' avt' h => rcases h with h | ⟨_, h⟩ <;> cases h
      | signedLower _ p' f' t' a' t1' h => rcases h with h | ⟨_, h⟩ <;> cases h
      | lift _ _ _ bal' avt' hk h0 hc => exact credits_eff hc rfl (by simp [createdBy]) rfl
    | growthLifted a p => exact absurd rfl (hg a p)
    | lowerClaimed i =>
      generalize step env s _ = r' at hv
      cases hv with
      | fail _ e => exact .same rfl rfl rfl
      | transfer _ p' f' d' t' a' bal' avt' h => rcases h with h | ⟨_, h⟩ <;> cases h
      | signedLower => exact .same rfl rfl rfl
      | claim => exact .same rfl rfl rfl
    | lowerReverted t w a i =>
      generalize step env s _ = r' at hv
      cases hv with
      | fail _ e => exact .same rfl (createdBy_false ..) rfl
      | transfer _ p' f' d' t' a' bal' avt' h => rcases h with h | ⟨_, h⟩ <;> cases h
      | signedLower _ p' f' t' a' t1' h => rcases h with h | ⟨_, h⟩ <;> cases h
      | revert _ _ _ _ ps bal' avt' hk hr h0 hc => exact credits_eff hc rfl (by simp [createdBy]) rfl
      | revertFail => exact .same rfl (createdBy_false ..) rfl
    | other => exact .same rfl rfl rfl
  | lowerProofResult i c d =>
    generalize step env s _ = r' at hv
    cases hv with
    | fail _ e => exact .same rfl rfl rfl
    | transfer _ p' f' d' t' a' bal' avt' h => rcases h with h | ⟨_, h⟩ <;> cases h
    | signedLower => exact .same rfl rfl rfl
    | proofIgnored => exact .same rfl rfl rfl
    | proofReady => exact .same rfl rfl rfl
    | proofTooLong => exact .same rfl rfl rfl
    | proofFailed => exact .same rfl rfl rfl
  | interfaceLift t w a =>
    generalize step env s _ = r' at hv
    cases hv with
    | fail _ e => exact .same rfl (createdBy_false ..) rfl
    | transfer _ p' f' d' t' a' bal' avt' h => rcases h with h | ⟨_, h⟩ <;> cases h
    | signedLower _ p' f' t' a' t1' h => rcases h with h | ⟨_, h⟩ <;> cases h
    | ifaceLift _ _ _ bal' avt' hk h0 hc => exact credits_eff hc rfl (by simp [createdBy]) rfl
  | depositTokens t w a =>
    generalize step env s _ = r' at hv
    cases hv with
    | fail _ e => exact .same rfl rfl rfl
    | transfer _ p' f' d' t' a' bal' avt' h => rcases h with h | ⟨_, h⟩ <;> cases h
    | signedLower => exact .same rfl rfl rfl
    | deposit => exact .same rfl rfl rfl
  | external v => exact absurd rfl (hx v)

end Verif.TokenManager

namespace Verif.Staking

/-! ### What the staking pallet does to native balances -/

/-- Only the pot pays, and nothing is created or destroyed. -/
structure PotPays (pot : Nat) (f f' : Nat → Nat) : Prop where
  total : ∀ n, TokenManager.Total f n → TokenManager.Total f' n
  mono : ∀ a, a ≠ pot → f a ≤ f' a

theorem PotPays.refl (pot : Nat) (f : Nat → Nat) : PotPays pot f f := ⟨fun _ h => h, fun _ _ => Nat.le_refl _⟩

theorem PotPays.trans {pot : Nat} {f g h : Nat → Nat} (a : PotPays pot f g) (b : PotPays pot g h) : PotPays pot f h :=
  ⟨fun n t => b.total n (a.total n t), fun x hx => Nat.le_trans (a.mono x hx) (b.mono x hx)⟩

theorem total_move {f : Nat → Nat} {n a b x : Nat} (h : TokenManager.Total f n) (ne : b ≠ a) (le : x ≤ f a) :
    TokenManager.Total (upd (upd f a (f a - x)) b (f b + x)) n := by
  have h1 := h.upd a (f a - x)
  have h2 := h1.upd b (f b + x)
  have l1 := h.le a
  have l2 := h1.le b
  rw [upd_ne _ _ ne] at l2 h2
  have : n - f a + (f a - x) - f b + (f b + x) = n := by omega
  rw [this] at h2
  exact h2

theorem payReward_pays (E : EPar) (e c : Nat) (F : Full) (x : Nat × Nat) :
    PotPays E.pot F.led.free (payReward E e c F x).led.free := by
  unfold payReward
  by_cases h1 : x.2 = 0 ∨ x.1 = E.pot
  · rw [if_pos h1]; exact PotPays.refl _ _
  rw [if_neg h1]
  by_cases h2 : F.led.free E.pot < x.2 + E.ed ∨ F.led.free x.1 + x.2 < E.ed
  · rw [if_pos h2]; exact PotPays.refl _ _
  rw [if_neg h2]
  have hne : x.1 ≠ E.pot := fun h => h1 (.inr h)
  refine ⟨fun n hn => total_move hn hne (by omega), fun a ha => ?_⟩
  show F.led.free a ≤ upd _ x.1 _ a
  by_cases e : a = x.1
  · subst e; rw [upd_same]; omega
  · rw [upd_ne _ _ e, upd_ne _ _ ha]

theorem payRewards_pays (E : EPar) (e c : Nat) (l : List (Nat × Nat)) (F : Full) :
    PotPays E.pot F.led.free (l.foldl (payReward E e c) F).led.free := by
  induction l generalizing F with
  | nil => exact PotPays.refl _ _
  | cons x l ih => exact (payReward_pays E e c F x).trans (ih _)

/-- Locks and stakes are untouched, balances as in `PotPays`. -/
structure Pays (pot : Nat) (s s' : St) : Prop where
  nlock : s'.nlock = s.nlock
  clock : s'.clock = s.clock
  free : PotPays pot s.free s'.free

theorem Pays.refl (pot : Nat) (s : St) : Pays pot s s := ⟨rfl, rfl, PotPays.refl _ _⟩

theorem Pays.trans {pot : Nat} {s t u : St} (a : Pays pot s t) (b : Pays pot t u) : Pays pot s u :=
  ⟨b.nlock.trans a.nlock, b.clock.trans a.clock, a.free.trans b.free⟩

theorem HandleSpec.pays {E : EPar} {F F' : Full} {e : Nat} (h : HandleSpec E F F' e) : Pays E.pot F.led F'.led := by
  cases h with
  | idle h => subst h; exact Pays.refl _ _
  | ended _ _ _ _ h => subst h; exact Pays.refl _ _
  | paid _ total _ h =>
    cases h with
    | paid c pts _ _ now =>
      have hp := payRewards_pays E (e - E.payDelay) c
        (rewardsOf c (perbillMul (ratio pts (F.points (e - E.payDelay))) total) (alGet (F.atStake (e - E.payDelay)) c Snap.zero))
        { F with awarded := upd F.awarded (e - E.payDelay) (alDel (F.awarded (e - E.payDelay)) c),
                 atStake := upd F.atStake (e - E.payDelay) (alDel (F.atStake (e - E.payDelay)) c),
                 served := F.served ++ [(e - E.payDelay, c)] }
      obtain ⟨f, k, p, hq⟩ := payRewards_eq E (e - E.payDelay) c
        (rewardsOf c (perbillMul (ratio pts (F.points (e - E.payDelay))) total) (alGet (F.atStake (e - E.payDelay)) c Snap.zero))
        { F with awarded := upd F.awarded (e - E.payDelay) (alDel (F.awarded (e - E.payDelay)) c),
                 atStake := upd F.atStake (e - E.payDelay) (alDel (F.atStake (e - E.payDelay)) c),
                 served := F.served ++ [(e - E.payDelay, c)] }
      rw [← now] at hp hq
      exact ⟨by rw [hq], by rw [hq], hp⟩

theorem StartSpec.pays {E : EPar} {pub : Nat → Option Nat} {F F' : Full} {now : Nat} (hs : StartSpec E pub F F' now) :
    Pays E.pot F.led F'.led := by
  obtain ⟨F1, F2, h1, h2, h3⟩ := hs.ex
  have hf : PrepFrame F F1 := by rw [h1]; exact prepIf_frame ..
  have hg := h2.frame
  subst h3
  have e : F2.led = F.led := hg.led.trans hf.led
  refine ⟨?_, ?_, ?_⟩
  · show F2.led.nlock = _; rw [e]
  · show F2.led.clock = _; rw [e]
  · show PotPays _ _ F2.led.free; rw [e]; exact PotPays.refl _ _

theorem BlockSpec.pays {E : EPar} {pub : Nat → Option Nat} {F F' : Full} {now author : Nat} (h : BlockSpec E pub F F' now author) :
    Pays E.pot F.led F'.led := by
  cases h with
  | same _ _ pay =>
    by_cases he : E.par.enabled = true
    · rw [if_pos he] at pay
      exact pay.pays
    · rw [if_neg he] at pay
      subst pay
      exact Pays.refl _ _
  | next why F1 start pay =>
    have h1 : Pays E.pot F.led F1.led := by
      have := start.pays
      by_cases hu : shouldUpdate F now = true
      · rw [if_pos hu] at this; exact this
      · rw [if_neg hu] at this; exact this
    by_cases he : E.par.enabled = true
    · rw [if_pos he] at pay
      exact h1.trans pay.pays
    · rw [if_neg he] at pay
      subst pay
      exact h1

/-- A lock covered by the balance, at one account. -/
def CovAt (s : St) (a : Nat) : Prop := s.nlock a ≤ s.free a ∧ s.clock a ≤ s.free a

/-- One step of staking that is neither a growth nor an outside balance change. -/
theorem eStep_pays {E : EPar} (hE : E.Sane) {F : Full} (h : Core E F) (op : EOp) (hg : ∀ a p, op ≠ .growthLifted a p)
    (hf : ∀ a v, op ≠ .ledger (.setFree a v)) :
    PotPays E.pot F.led.free (eStep E F op).led.free ∧
    (∀ a, a ≠ E.pot → CovAt F.led a → CovAt (eStep E F op).led a) ∧
    ((∀ pub now author pick, op ≠ .block pub now author pick) → (eStep E F op).led.free = F.led.free) := by
  have triv : ∀ F' : Full, F'.led = F.led → PotPays E.pot F.led.free F'.led.free ∧
      (∀ a, a ≠ E.pot → CovAt F.led a → CovAt F'.led a) ∧
      ((∀ pub now author pick, op ≠ .block pub now author pick) → F'.led.free = F.led.free) := by
    intro F' e
    rw [e]
    exact ⟨PotPays.refl _ _, fun _ _ h => h, fun _ => rfl⟩
  unfold eStep
  cases ho : eCall E F op with
  | none => exact triv F rfl
  | some F' =>
    show PotPays E.pot F.led.free F'.led.free ∧ _ ∧ _
    cases op with
    | block pub now author pick =>
      have hs := (blockHooks_spec h (show blockHooks E pub F now author pick = some F' from ho)).pays
      refine ⟨hs.free, fun a ha hc => ?_, fun hh => absurd rfl (hh pub now author pick)⟩
      show F'.led.nlock a ≤ F'.led.free a ∧ F'.led.clock a ≤ F'.led.free a
      rw [hs.nlock, hs.clock]
      have := hs.free.mono a ha
      exact ⟨Nat.le_trans hc.1 this, Nat.le_trans hc.2 this⟩
    | ledger o =>
      simp only [eCall] at ho
      by_cases ha : o.allowed E F.led = true
      · rw [if_pos ha] at ho
        cases hc : call E.par F.led o with
        | none => rw [hc] at ho; cases ho
        | some s' =>
          rw [hc] at ho
          injection ho with ho
          subst ho
          have hst : step E.par F.led o = s' := by unfold step; rw [hc]; rfl
          have st := step_ok hE.par.ok hE.par.per.1 h.led o
          rw [hst] at st
          have hfree : s'.free = F.led.free := by
            rcases st.free with e | ⟨a, v, e, _⟩
            · exact e
            · exact absurd (by rw [e]) (hf a v)
          show PotPays E.pot F.led.free s'.free ∧ (∀ a, a ≠ E.pot → CovAt F.led a → CovAt s' a) ∧ (_ → s'.free = F.led.free)
          refine ⟨by rw [hfree]; exact PotPays.refl _ _, fun a _ hcov => ?_, fun _ => hfree⟩
          unfold CovAt
          rw [hfree, ← hst]
          refine ⟨?_, clock_step hE.par h.led o a hcov.2⟩
          by_cases hn : o.adds a
          · exact nlock_adds hE.par h.led hn hcov.1
          · exact Nat.le_trans (nlock_not_adds hE.par h.led o hn) hcov.1
      · rw [if_neg ha] at ho; cases ho
    | setTotalSelected v =>
      simp only [eCall, setTotalSelected] at ho
      by_cases hc : E.minSelected ≤ v ∧ F.totalSelected ≠ v ∧ v ≤ F.length
      · rw [if_pos hc] at ho; injection ho with ho; subst ho; exact triv _ rfl
      · rw [if_neg hc] at ho; cases ho
    | setBlocksPerEra v =>
      simp only [eCall, setBlocksPerEra] at ho
      by_cases hc : E.minBlocks ≤ v ∧ F.length ≠ v ∧ F.totalSelected ≤ v
      · rw [if_pos hc] at ho; injection ho with ho; subst ho; exact triv _ rfl
      · rw [if_neg hc] at ho; cases ho
    | forceEra => simp only [eCall] at ho; injection ho with ho; subst ho; exact triv _ rfl
    | bridgeResult tx ok =>
      simp only [eCall] at ho; injection ho with ho; subst ho
      refine triv _ ?_
      unfold bridgeResult
      cases F.published tx with
      | none => rfl
      | some p => rfl
    | growthLifted a p => exact absurd rfl (hg a p)

/-! ### A growth payout -/

theorem total_add {f : Nat → Nat} {n a x : Nat} (h : TokenManager.Total f n) : TokenManager.Total (upd f a (f a + x)) (n + x) := by
  have h1 := h.upd a (f a + x)
  have := h.le a
  have e : n - f a + (f a + x) = n + x := by omega
  rw [e] at h1
  exact h1

theorem mintAll_total (l : List (Nat × Nat)) (F : Full) {n : Nat} (h : TokenManager.Total F.led.free n) :
    TokenManager.Total (mintAll l F).1.led.free (n + (mintAll l F).2.1) ∧ (mintAll l F).2.1 ≤ valSum l := by
  induction l generalizing F n with
  | nil => exact ⟨h, Nat.le_refl _⟩
  | cons x l ih =>
    unfold mintAll
    by_cases h0 : F.led.free x.1 = 0
    · rw [if_pos h0]; exact ⟨h, Nat.zero_le _⟩
    · rw [if_neg h0]
      obtain ⟨i1, i2⟩ := ih { F with led := { F.led with free := upd F.led.free x.1 (F.led.free x.1 + x.2) } } (total_add h)
      refine ⟨?_, ?_⟩
      · rw [← Nat.add_assoc]; exact i1
      · show _ ≤ valSum (x :: l)
        simp only [valSum, List.map_cons, List.sum_cons] at i2 ⊢
        exact Nat.add_le_add_left i2 _

/-- A growth payout with an existing treasury: if it completes, the larger of the amount and the sum of the shares is created, and if it
does not, at most the sum of the shares. -/
theorem payoutGrowth_total (E : EPar) (F : Full) (amount period : Nat) {n : Nat} (h : TokenManager.Total F.led.free n)
    (ht : F.led.free E.treasury ≠ 0) :
    ∃ g, TokenManager.Total (payoutGrowth E F amount period).1.led.free (n + g) ∧
      ((payoutGrowth E F amount period).2 = true → g = max amount (valSum (growthShares F amount period))) ∧
      ((payoutGrowth E F amount period).2 = false → g ≤ valSum (growthShares F amount period)) := by
  unfold payoutGrowth
  by_cases h1 : F.processed period = true
  · rw [if_pos h1]; exact ⟨0, h, (fun e => by cases e), (fun _ => Nat.zero_le _)⟩
  rw [if_neg h1]
  dsimp only
  obtain ⟨m1, m2⟩ := mintAll_total (growthShares F amount period) F h
  obtain ⟨f, hm, hmono⟩ := mintAll_eq (growthShares F amount period) F
  by_cases h2 : (mintAll (growthShares F amount period) F).2.2 = false
  · rw [if_pos h2]; exact ⟨_, m1, fun e => by (cases e), fun _ => m2⟩
  rw [if_neg h2]
  have hd := (mintAll_done (growthShares F amount period) F (by simpa using h2)).1
  have htr : (mintAll (growthShares F amount period) F).1.led.free E.treasury ≠ 0 := by
    rw [hm]
    have := hmono E.treasury
    show f E.treasury ≠ 0
    omega
  generalize mintAll (growthShares F amount period) F = r at *
  unfold dustTo
  by_cases h3 : amount - r.2.1 = 0 ∨ r.1.led.free E.treasury = 0
  · rw [if_pos h3]
    refine ⟨r.2.1, m1, fun _ => ?_, fun e => by cases e⟩
    rcases h3 with h3 | h3
    · rw [← hd]; exact (Nat.max_eq_right (by omega)).symm
    · exact absurd h3 htr
  · rw [if_neg h3]
    have h4 : amount - r.2.1 ≠ 0 := fun e => h3 (.inl e)
    refine ⟨r.2.1 + (amount - r.2.1), ?_, fun _ => ?_, fun e => by cases e⟩
    · rw [← Nat.add_assoc]
      exact total_add m1
    · rw [← hd, Nat.max_eq_left (by omega)]; omega

end Verif.Staking

namespace Verif.Ledger

open Verif.Staking

/-! ### Accounts and numbers -/

theorem store_num (N : Numbering) (F : Full) (avt : Acct → Nat) (a : Acct) : (store N F avt).led.free (N.num a) = avt a := by
  show storeFree N F avt (N.num a) = avt a
  unfold storeFree
  rw [N.left]

theorem store_self (N : Numbering) (F : Full) : store N F (avtOf N F) = F := by
  have : storeFree N F (avtOf N F) = F.led.free := by
    funext n
    unfold storeFree
    cases e : N.inv n with
    | none => rfl
    | some a => show F.led.free (N.num a) = _; rw [N.right n a e]
  unfold store
  rw [this]

theorem store_upd (N : Numbering) (F : Full) (g : Acct → Nat) (w : Acct) (v : Nat) :
    store N F (upd g w v) = (store N F g).withFree (upd (store N F g).led.free (N.num w) v) := by
  have : storeFree N F (upd g w v) = upd (storeFree N F g) (N.num w) v := by
    funext n
    by_cases h : n = N.num w
    · subst h
      rw [upd_same]
      unfold storeFree
      rw [N.left]
      show upd g w v w = v
      rw [upd_same]
    · rw [upd_ne _ _ h]
      unfold storeFree
      cases e : N.inv n with
      | none => rfl
      | some a =>
        show upd g w v a = g a
        have : a ≠ w := fun ha => h (by rw [← ha]; exact (N.right n a e).symm)
        rw [upd_ne _ _ this]
  unfold store
  rw [this]
  rfl

theorem num_inj (N : Numbering) {a b : Acct} (h : N.num a = N.num b) : a = b := by
  have := N.left a
  rw [h, N.left b] at this
  injection this with this
  exact this.symm

/-! ### Effects on balances -/

/-- What a step does to balances, apart from staking and growth. -/
inductive Eff (F F' : Full) (payer : Option Nat) (cr de : Nat) : Prop
  | same (h : F' = F) (h1 : cr = 0) (h2 : de = 0)
  | moved (f d a : Nat) (hp : payer = some f) (ne : d ≠ f) (le : a ≤ F.led.free f) (fr : frozen F f ≤ F.led.free f - a)
      (h : F' = F.withFree (upd (upd F.led.free f (F.led.free f - a)) d (F.led.free d + a))) (h1 : cr = 0) (h2 : de = 0)
  | credit (w a : Nat) (h : F' = F.withFree (upd F.led.free w (F.led.free w + a))) (h1 : cr = a) (h2 : de = 0)
  | burn (f a : Nat) (hp : payer = some f) (le : a ≤ F.led.free f) (fr : frozen F f ≤ F.led.free f - a)
      (h : F' = F.withFree (upd F.led.free f (F.led.free f - a))) (h1 : cr = 0) (h2 : de = a)

theorem Eff.total {F F' : Full} {p : Option Nat} {cr de n : Nat} (h : Eff F F' p cr de) (t : TokenManager.Total F.led.free n) :
    ∃ n', TokenManager.Total F'.led.free n' ∧ n' + de = n + cr := by
  cases h with
  | same h h1 h2 => subst h; exact ⟨n, t, by omega⟩
  | moved f d a hp ne le fr h h1 h2 => subst h; exact ⟨n, total_move t ne le, by omega⟩
  | credit w a h h1 h2 => subst h; exact ⟨n + a, total_add t, by omega⟩
  | burn f a hp le fr h h1 h2 =>
    subst h
    have := t.le f
    exact ⟨_, t.upd f (F.led.free f - a), by omega⟩

theorem Eff.mono {F F' : Full} {p : Option Nat} {cr de : Nat} (h : Eff F F' p cr de) (x : Nat) (hx : p ≠ some x) :
    F.led.free x ≤ F'.led.free x := by
  cases h with
  | same h => subst h; exact Nat.le_refl _
  | moved f d a hp ne le fr h =>
    subst h
    have hxf : x ≠ f := fun e => hx (by rw [hp, e])
    show _ ≤ upd (upd F.led.free f _) d _ x
    by_cases e : x = d
    · subst e; rw [upd_same]; omega
    · rw [upd_ne _ _ e, upd_ne _ _ hxf]
  | credit w a h =>
    subst h
    show _ ≤ upd F.led.free w _ x
    by_cases e : x = w
    · subst e; rw [upd_same]; omega
    · rw [upd_ne _ _ e]
  | burn f a hp le fr h =>
    subst h
    have hxf : x ≠ f := fun e => hx (by rw [hp, e])
    show _ ≤ upd F.led.free f _ x
    rw [upd_ne _ _ hxf]

theorem Eff.locks {F F' : Full} {p : Option Nat} {cr de : Nat} (h : Eff F F' p cr de) :
    F'.led.nlock = F.led.nlock ∧ F'.led.clock = F.led.clock := by
  cases h with
  | same h => subst h; exact ⟨rfl, rfl⟩
  | moved f d a hp ne le fr h => subst h; exact ⟨rfl, rfl⟩
  | credit w a h => subst h; exact ⟨rfl, rfl⟩
  | burn f a hp le fr h => subst h; exact ⟨rfl, rfl⟩

theorem Eff.floor {F F' : Full} {p : Option Nat} {cr de : Nat} (h : Eff F F' p cr de) (x : Nat) :
    F.led.free x ≤ F'.led.free x ∨ frozen F x ≤ F'.led.free x := by
  by_cases hx : p = some x
  · cases h with
    | same h => subst h; exact .inl (Nat.le_refl _)
    | moved f d a hp ne le fr h =>
      subst h
      have : x = f := by rw [hp] at hx; injection hx with hx; exact hx.symm
      subst this
      right
      show _ ≤ upd (upd F.led.free x _) d _ x
      rw [upd_ne _ _ (Ne.symm ne), upd_same]
      exact fr
    | credit w a h =>
      subst h
      left
      show _ ≤ upd F.led.free w _ x
      by_cases e : x = w
      · subst e; rw [upd_same]; omega
      · rw [upd_ne _ _ e]
    | burn f a hp le fr h =>
      subst h
      have : x = f := by rw [hp] at hx; injection hx with hx; exact hx.symm
      subst this
      right
      show _ ≤ upd F.led.free x _ x
      rw [upd_same]
      exact fr
  · exact .inl (h.mono x hx)

theorem Eff.cov {F F' : Full} {p : Option Nat} {cr de : Nat} (h : Eff F F' p cr de) (x : Nat) (hc : CovAt F.led x) : CovAt F'.led x := by
  obtain ⟨h1, h2⟩ := h.locks
  unfold CovAt at *
  rw [h1, h2]
  rcases h.floor x with hf | hf
  · omega
  · unfold frozen at hf
    exact ⟨Nat.le_trans (Nat.le_max_right _ _) hf, Nat.le_trans (Nat.le_max_left _ _) hf⟩

theorem reach_setFree {E : EPar} {F : Full} (h : EReach E F) (a v : Nat) (hp : a = E.pot → F.led.free a ≤ v) :
    EReach E (F.withFree (upd F.led.free a v)) := by
  have := h.step (.ledger (.setFree a v))
  have e : eStep E F (.ledger (.setFree a v)) = F.withFree (upd F.led.free a v) := by
    unfold eStep
    have ha : (Op.setFree a v).allowed E F.led = true := by
      show decide (a = E.pot → F.led.free a ≤ v) = true
      exact decide_eq_true hp
    show ((if (Op.setFree a v).allowed E F.led = true then _ else none).getD F) = _
    rw [if_pos ha]
    rfl
  rw [e] at this
  exact this

theorem Eff.reach {E : EPar} {F F' : Full} {p : Option Nat} {cr de : Nat} (h : Eff F F' p cr de) (hp : p ≠ some E.pot)
    (hr : EReach E F) : EReach E F' := by
  cases h with
  | same h => subst h; exact hr
  | moved f d a hpay ne le fr h =>
    subst h
    have h1 := reach_setFree hr f (F.led.free f - a) (fun e => absurd (by rw [hpay, e]) hp)
    have h2 := reach_setFree h1 d (F.led.free d + a) (fun _ => by
      show upd F.led.free f _ d ≤ _
      rw [upd_ne _ _ ne]; omega)
    exact h2
  | credit w a h => subst h; exact reach_setFree hr w _ (fun _ => by omega)
  | burn f a hpay le fr h => subst h; exact reach_setFree hr f _ (fun e => absurd (by rw [hpay, e]) hp)

theorem token_eff (C : Cfg) (S : Sys) (env : TokenManager.Env) (st : TokenManager.Step)
    (hg : ∀ a p, st ≠ .event (.growthLifted a p)) :
    Eff S.F (tokenStep C S env st).F (payer C S (.token env st)) (created C S (.token env st)) (destroyed C S (.token env st)) ∧
    (tokenStep C S env st).held = S.held := by
  by_cases hx : ∃ v, st = .external v
  · obtain ⟨v, rfl⟩ := hx
    exact ⟨.same rfl rfl rfl, rfl⟩
  · have hx' : ∀ v, st ≠ .external v := fun v e => hx ⟨v, e⟩
    have e : tokenStep C S env st = ⟨(TokenManager.step (envOf C S.F env) (load C S) st).1,
        store C.N S.F (TokenManager.step (envOf C S.F env) (load C S) st).1.avt, S.held⟩ := by
      unfold tokenStep
      cases st with
      | external v => exact absurd rfl (hx' v)
      | event d => cases d with
        | growthLifted a p => exact absurd rfl (hg a p)
        | _ => rfl
      | _ => rfl
    rw [e]
    refine ⟨?_, rfl⟩
    show Eff S.F (store C.N S.F (TokenManager.step (envOf C S.F env) (load C S) st).1.avt) _ _ _
    have hpay : TokenManager.payerOf (envOf C S.F env).treasury (load C S) st = TokenManager.payerOf C.treasury S.tm st := by
      cases st with
      | proxy r c => cases c <;> rfl
      | _ => rfl
    have hcr : TokenManager.createdBy (load C S).avtContract (TokenManager.step (envOf C S.F env) (load C S) st).2.isNone st =
        created C S (.token env st) := rfl
    have hde : TokenManager.destroyedBy (load C S) (TokenManager.step (envOf C S.F env) (load C S) st).2.isNone st =
        destroyed C S (.token env st) := by
      show _ = TokenManager.destroyedBy S.tm (TokenManager.step (envOf C S.F env) (load C S) st).2.isNone st
      generalize (TokenManager.step (envOf C S.F env) (load C S) st).2.isNone = b
      cases st with
      | dispatchScheduled i => rfl
      | _ => rfl
    have hl : (load C S).avt = avtOf C.N S.F := rfl
    have hv := TokenManager.step_avt (envOf C S.F env) (load C S) st hg hx'
    cases hv with
    | same h hi ho =>
      rw [h, hl, store_self]
      exact .same rfl (hcr ▸ hi) (hde ▸ ho)
    | moved f d a hp ne le fr h hi ho =>
      rw [hpay] at hp
      rw [h]
      have hne : C.N.num d ≠ C.N.num f := fun e => ne (num_inj C.N e).symm
      refine .moved (C.N.num f) (C.N.num d) a (by show Option.map _ _ = _; rw [hp]; rfl) hne le fr ?_ (hcr ▸ hi) (hde ▸ ho)
      unfold TokenManager.moved
      dsimp only
      rw [store_upd, store_upd, hl, store_self, upd_ne _ _ (Ne.symm ne)]
      rfl
    | credit w a h hi ho =>
      rw [h, store_upd, hl, store_self]
      exact .credit (C.N.num w) a rfl (hcr ▸ hi) (hde ▸ ho)
    | burn f a hp le fr h hi ho =>
      rw [hpay] at hp
      rw [h, store_upd, hl, store_self]
      exact .burn (C.N.num f) a (by show Option.map _ _ = _; rw [hp]; rfl) le fr rfl (hcr ▸ hi) (hde ▸ ho)

theorem transfer_eff (S : Sys) (f d a : Nat) : Eff S.F (transferStep S f d a).F (some f) 0 0 ∧ (transferStep S f d a).held = S.held := by
  unfold transferStep
  by_cases h1 : a = 0 ∨ f = d
  · rw [if_pos h1]; exact ⟨.same rfl rfl rfl, rfl⟩
  rw [if_neg h1]
  by_cases h2 : S.F.led.free f < a + frozen S.F f ∨ S.F.led.free d + a ≥ pow128
  · rw [if_pos h2]; exact ⟨.same rfl rfl rfl, rfl⟩
  rw [if_neg h2]
  have ne : d ≠ f := fun e => h1 (.inr e.symm)
  refine ⟨.moved f d a rfl ne (by omega) (by omega) ?_ rfl rfl, rfl⟩
  dsimp only
  rw [upd_ne _ _ ne]
  rfl

theorem takeFee_eff (S : Sys) (w fee : Nat) : ∃ de, Eff S.F (takeFee S w fee).F (some w) 0 de ∧ (takeFee S w fee).held = S.held + de := by
  unfold takeFee
  by_cases h1 : S.F.led.free w < fee + frozen S.F w
  · rw [if_pos h1]; exact ⟨0, .same rfl rfl rfl, rfl⟩
  · rw [if_neg h1]
    exact ⟨fee, .burn w fee rfl (by omega) (by omega) rfl rfl rfl, rfl⟩

theorem settleFee_eff (C : Cfg) (S : Sys) (w p r : Nat) : ∃ F1 c1 c2, Eff S.F F1 none c1 0 ∧ Eff F1 (settleFee C S w p r).F none c2 0 ∧
    (settleFee C S w p r).held + (c1 + c2) = S.held := by
  unfold settleFee
  by_cases h1 : S.held < p ∨ p < r
  · rw [if_pos h1]; exact ⟨S.F, 0, 0, .same rfl rfl rfl, .same rfl rfl rfl, rfl⟩
  · rw [if_neg h1]
    refine ⟨S.F.withFree (upd S.F.led.free w (S.F.led.free w + r)), r, p - r, .credit w r rfl rfl rfl, .credit C.E.pot (p - r) rfl rfl rfl, ?_⟩
    show S.held - p + (r + (p - r)) = S.held
    omega

/-! ### Growth -/

/-- The number of collators a growth is shared between. -/
def sharers (F : Full) (period : Nat) : Nat :=
  match F.growth period with
  | some g => g.scores.length
  | none => F.selected.length

theorem growthF_cases (C : Cfg) (S : Sys) (env : TokenManager.Env) (amount period : Nat) :
    (growthF C S env amount period = S.F ∧ accepted C S env (.event (.growthLifted amount period)) = false) ∨
    ∃ F1, F1 = S.F.withFree (upd S.F.led.free C.E.treasury (S.F.led.free C.E.treasury + perbillMul env.growthPct amount)) ∧
      perbillMul env.growthPct amount ≠ 0 ∧ env.eventKnown = true ∧
      growthF C S env amount period = (payoutGrowth C.E F1 (amount - perbillMul env.growthPct amount) period).1 ∧
      accepted C S env (.event (.growthLifted amount period)) =
        (payoutGrowth C.E F1 (amount - perbillMul env.growthPct amount) period).2 := by
  unfold growthF accepted
  simp only [TokenManager.step, TokenManager.processedEventHandler, TokenManager.processGrowthLift]
  have ek : (envOf C S.F env).eventKnown = env.eventKnown := rfl
  have et : (envOf C S.F env).treasury = C.treasury := rfl
  have ep : (envOf C S.F env).growthPct = env.growthPct := rfl
  rw [ek, et, ep]
  cases hk : env.eventKnown with
  | false => left; exact ⟨if_pos (.inl rfl), rfl⟩
  | true =>
    by_cases h0 : amount = 0
    · left; rw [if_pos (.inr h0), if_neg (by decide), if_pos h0]; exact ⟨rfl, rfl⟩
    · rw [if_neg (by simp [h0]), if_neg (by decide), if_neg h0]
      rcases TokenManager.creditAvt_spec (load C S) C.treasury (perbillMul env.growthPct amount) with ⟨e, he⟩ | ⟨he, hne, ho⟩
      · left; rw [he]; exact ⟨rfl, rfl⟩
      · right
        rw [he]
        have hs : store C.N S.F (upd (load C S).avt C.treasury ((load C S).avt C.treasury + perbillMul env.growthPct amount)) =
            S.F.withFree (upd S.F.led.free C.E.treasury (S.F.led.free C.E.treasury + perbillMul env.growthPct amount)) := by
          rw [store_upd]
          have : (load C S).avt = avtOf C.N S.F := rfl
          rw [this, store_self]
          unfold avtOf
          rw [C.same]
        refine ⟨_, hs, hne, rfl, rfl, ?_⟩
        show (if ((envOf C S.F env).growthHandler _ _ _).2 = true then none else some _).isNone = _
        show (if (payoutGrowth C.E (store C.N S.F _) _ _).2 = true then none else some TokenManager.Err.growthHandler).isNone = _
        cases (payoutGrowth C.E _ (amount - perbillMul env.growthPct amount) period).2 <;> rfl

theorem growthShares_length (F : Full) (amount period : Nat) : (growthShares F amount period).length = sharers F period := by
  unfold growthShares sharers
  cases F.growth period with
  | none => simp
  | some g => simp

theorem growthShares_withFree (F : Full) (f : Nat → Nat) (amount period : Nat) :
    growthShares (F.withFree f) amount period = growthShares F amount period := rfl

end Verif.Ledger
