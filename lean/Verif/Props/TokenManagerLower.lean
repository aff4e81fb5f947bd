import Verif.Props.TokenManager

/-!
# Properties of lowering and incoming events: C05, C06, C07, C09, C10, C11
-/

namespace Verif.TokenManager
open Verif.Lower

/-! ## C05 lifecycle -/

/-- In how many lifecycle stages (scheduled, pending proof, ready to claim, failed proof) is lower id `i`? -/
def stageCount (s : State) (i : Nat) : Nat :=
  (s.scheduled i).isSome.toNat + (s.pending i).isSome.toNat + (s.ready i).isSome.toNat + (s.failed i).isSome.toNat

/-- Every id is in at most one stage, and ids not handed out yet are in none. -/
def LowersOk (s : State) : Prop :=
  ∀ i, stageCount s i ≤ 1 ∧ (s.lowerNonce ≤ i → stageCount s i = 0)

/-- Steps other than a manual `execute_lower` by root (which may name any lower id). -/
def NotRootLower (st : Step) : Prop := ∀ c i, st ≠ .rootExecuteLower c i

/-- An id that was handed out and has left every stage (claimed, reverted, cancelled, or failed to execute). -/
def Spent (s : State) (i : Nat) : Prop := i < s.lowerNonce ∧ stageCount s i = 0

theorem stage_step (env : Env) (s : State) (st : Step) (hb : s.lowerNonce + 1 < pow32) (hn : NotRootLower st)
    (h : LowersOk s) :
    LowersOk (step env s st).1 ∧ s.lowerNonce ≤ (step env s st).1.lowerNonce ∧
      (step env s st).1.lowerNonce ≤ s.lowerNonce + 1 ∧ (∀ i, Spent s i → Spent (step env s st).1 i) := by
  have hv := step_view env s st
  generalize step env s st = r at hv
  have hw : wrapInc32 s.lowerNonce = s.lowerNonce + 1 := Nat.mod_eq_of_lt hb
  have same : ∀ s' : State, s'.lowerNonce = s.lowerNonce → (∀ i, stageCount s' i ≤ stageCount s i) →
      LowersOk s' ∧ s.lowerNonce ≤ s'.lowerNonce ∧ s'.lowerNonce ≤ s.lowerNonce + 1 ∧ (∀ i, Spent s i → Spent s' i) := by
    intro s' h1 h2
    refine ⟨fun i => ⟨Nat.le_trans (h2 i) (h i).1, fun hi => ?_⟩, by omega, by omega, fun i hi => ⟨by rw [h1]; exact hi.1, ?_⟩⟩
    · have := (h i).2 (by omega); have := h2 i; omega
    · have := hi.2; have := h2 i; omega
  have new : ∀ (s' : State) (c : LowerCall), s'.lowerNonce = s.lowerNonce + 1 →
      s'.scheduled = upd s.scheduled s.lowerNonce (some c) → s'.pending = s.pending → s'.ready = s.ready →
      s'.failed = s.failed →
      LowersOk s' ∧ s.lowerNonce ≤ s'.lowerNonce ∧ s'.lowerNonce ≤ s.lowerNonce + 1 ∧ (∀ i, Spent s i → Spent s' i) := by
    intro s' c h1 h2 h3 h4 h5
    have hne : ∀ i, i ≠ s.lowerNonce → stageCount s' i = stageCount s i := by
      intro i hi; unfold stageCount; rw [h2, h3, h4, h5, upd_ne _ _ hi]
    have heq : stageCount s' s.lowerNonce ≤ 1 := by
      have := (h s.lowerNonce).2 (Nat.le_refl _)
      unfold stageCount at this ⊢; rw [h2, h3, h4, h5, upd_same]; simp; omega
    refine ⟨fun i => ?_, by omega, by omega, fun i hi => ?_⟩
    · by_cases e : i = s.lowerNonce
      · subst e; exact ⟨heq, fun hi => by omega⟩
      · rw [hne i e]; exact ⟨(h i).1, fun hi => (h i).2 (by omega)⟩
    · have h1' := hi.1
      exact ⟨by omega, by rw [hne i (by omega)]; exact hi.2⟩
  cases hv with
  | direct f t a t1 => exact new _ _ hw rfl rfl rfl rfl
  | signedLower st p f t a t1 => exact new _ _ hw rfl rfl rfl rfl
  | regenReady q i ps hd hr =>
    refine same _ rfl (fun j => ?_)
    have := (h i).1
    unfold stageCount at this ⊢
    by_cases e : j = i
    · subst e; simp [hr] at this ⊢ <;> omega
    · simp [upd_ne _ _ e]
  | regenFailed q i ps hd hr hf =>
    refine same _ rfl (fun j => ?_)
    have := (h i).1
    unfold stageCount at this ⊢
    by_cases e : j = i
    · subst e; simp [hf, hr] at this ⊢ <;> omega
    · simp [upd_ne _ _ e]
  | rootLower c i => exact absurd rfl (hn c i)
  | schedLower c i bal' avt' hc =>
    refine same _ rfl (fun j => ?_)
    have := (h i).1
    unfold stageCount at this ⊢
    by_cases e : j = i
    · subst e; simp [hc] at this ⊢ <;> omega
    · simp [upd_ne _ _ e]
  | schedFail c i e hc =>
    refine same _ rfl (fun j => ?_)
    unfold stageCount
    by_cases e : j = i
    · subst e; simp <;> omega
    · simp [upd_ne _ _ e]
  | cancel i =>
    refine same _ rfl (fun j => ?_)
    unfold stageCount
    by_cases e : j = i
    · subst e; simp <;> omega
    · simp [upd_ne _ _ e]
  | claim i ps hk hr =>
    refine same _ rfl (fun j => ?_)
    unfold stageCount
    by_cases e : j = i
    · subst e; simp <;> omega
    · simp [upd_ne _ _ e]
  | revert t w a i ps bal' avt' hk hr =>
    refine same _ rfl (fun j => ?_)
    unfold stageCount
    by_cases e : j = i
    · subst e; simp <;> omega
    · simp [upd_ne _ _ e]
  | revertFail t w a i ps e hk hr =>
    refine same _ rfl (fun j => ?_)
    unfold stageCount
    by_cases e : j = i
    · subst e; simp <;> omega
    · simp [upd_ne _ _ e]
  | proofReady i len ps hp =>
    refine same _ rfl (fun j => ?_)
    have := (h i).1
    unfold stageCount at this ⊢
    by_cases e : j = i
    · subst e; simp [hp] at this ⊢ <;> omega
    · simp [upd_ne _ _ e]
  | proofTooLong i len ps hp =>
    refine same _ rfl (fun j => ?_)
    unfold stageCount
    by_cases e : j = i
    · subst e; simp <;> omega
    · simp [upd_ne _ _ e]
  | proofFailed i ps hp =>
    refine same _ rfl (fun j => ?_)
    have := (h i).1
    unfold stageCount at this ⊢
    by_cases e : j = i
    · subst e; simp [hp] at this ⊢ <;> omega
    · simp [upd_ne _ _ e]
  | _ => exact same _ rfl (fun j => Nat.le_refl _)

/-- No step of the history is a manual root `execute_lower`, and the `u32` id counter cannot wrap during it. -/
def Regular (s : State) (hist : List (Env × Step)) : Prop :=
  (∀ x ∈ hist, NotRootLower x.2) ∧ s.lowerNonce + hist.length < pow32

theorem Regular.tail {s : State} {x : Env × Step} {rest : List (Env × Step)} (h : Regular s (x :: rest))
    (hok : LowersOk s) : Regular (step x.1 s x.2).1 rest := by
  have h2 := h.2
  simp only [List.length_cons] at h2
  have := stage_step x.1 s x.2 (by omega) (h.1 x (by simp)) hok
  exact ⟨fun y hy => h.1 y (by simp [hy]), by omega⟩

/-- **C05.** At any time of any history, a lower id is in at most one stage, and an id not yet handed out is in none. -/
theorem C05_one_stage (hist : List (Env × Step)) (s : State) (hok : LowersOk s) (hr : Regular s hist) :
    LowersOk (run s hist) := by
  induction hist generalizing s with
  | nil => exact hok
  | cons x rest ih =>
    have h2 := hr.2
    simp only [List.length_cons] at h2
    exact ih _ (stage_step x.1 s x.2 (by omega) (hr.1 x (by simp)) hok).1 (hr.tail hok)

/-- **C05.** A lower request gets an id that was in no stage and was never handed out before, and the counter moves on. -/
theorem C05_fresh_id (env : Env) (s : State) (st : Step) (i : Nat) (c : LowerCall) (hok : LowersOk s)
    (hb : s.lowerNonce + 1 < pow32)
    (hnew : (step env s st).1.scheduled i = some c) (hold : s.scheduled i ≠ some c) :
    i = s.lowerNonce ∧ stageCount s i = 0 ∧ (step env s st).1.lowerNonce = s.lowerNonce + 1 := by
  obtain ⟨hi, hst⟩ := C03_agenda_only_by_sender env s st i c hnew hold
  refine ⟨hi, (hok i).2 (by omega), ?_⟩
  have hw : wrapInc32 s.lowerNonce = s.lowerNonce + 1 := Nat.mod_eq_of_lt hb
  have hv := step_view env s st
  generalize hr : step env s st = r at hv hnew
  cases hv with
  | direct => exact hw
  | signedLower => exact hw
  | schedLower c' j => rcases hst with h | ⟨_, h, _⟩ | ⟨_, h, _⟩ <;> cases h
  | schedFail c' j => rcases hst with h | ⟨_, h, _⟩ | ⟨_, h, _⟩ <;> cases h
  | cancel j => rcases hst with h | ⟨_, h, _⟩ | ⟨_, h, _⟩ <;> cases h
  | _ => exact absurd hnew hold

/-- **C05.** An id that left every stage (in particular one that was claimed or reverted) never comes back. -/
theorem C05_spent_forever (hist : List (Env × Step)) (s : State) (hok : LowersOk s) (hr : Regular s hist) (i : Nat)
    (hi : Spent s i) : Spent (run s hist) i := by
  induction hist generalizing s with
  | nil => exact hi
  | cons x rest ih =>
    have h2 := hr.2
    simp only [List.length_cons] at h2
    obtain ⟨h1, _, _, h4⟩ := stage_step x.1 s x.2 (by omega) (hr.1 x (by simp)) hok
    exact ih _ h1 (hr.tail hok) (h4 i hi)

/-! ## C06 claimed or refunded at most once -/

/-- Specification: the step is an accepted Ethereum claim or revert of lower `i`. -/
def settles (env : Env) (s : State) (st : Step) (i : Nat) : Prop :=
  (step env s st).2 = none ∧ (st = .event (.lowerClaimed i) ∨ ∃ t w a, st = .event (.lowerReverted t w a i))

instance (env : Env) (s : State) (st : Step) (i : Nat) : Decidable (settles env s st i) :=
  if h1 : (step env s st).2 = none then
    match st with
    | .event (.lowerClaimed j) => if h : j = i then isTrue ⟨h1, .inl (by rw [h])⟩ else
        isFalse (fun hh => by rcases hh.2 with e | ⟨_, _, _, e⟩ <;> cases e; exact h rfl)
    | .event (.lowerReverted t w a j) => if h : j = i then isTrue ⟨h1, .inr ⟨t, w, a, by rw [h]⟩⟩ else
        isFalse (fun hh => by rcases hh.2 with e | ⟨_, _, _, e⟩ <;> cases e; exact h rfl)
    | .event (.lifted ..) | .event (.growthLifted ..) | .event .other | .proxy .. | .signedTransfer .. | .scheduleDirectLower ..
    | .scheduleSignedLower .. | .regenerateLowerProof .. | .rootTreasury .. | .rootExecuteLower .. | .rootSetPeriod ..
    | .rootToggleLowering .. | .rootSetNative .. | .rootCancelScheduled .. | .dispatchScheduled .. | .lowerProofResult ..
    | .payFee .. | .payTreasury .. | .interfaceLift .. | .depositTokens .. | .external .. =>
        isFalse (fun hh => by rcases hh.2 with e | ⟨_, _, _, e⟩ <;> cases e)
  else isFalse (fun h => h1 h.1)

/-- Number of accepted claims and reverts of lower `i` along a history. -/
def settleCount (s : State) (i : Nat) : List (Env × Step) → Nat
  | [] => 0
  | (env, st) :: rest => (if settles env s st i then 1 else 0) + settleCount (step env s st).1 i rest

theorem settles_ready {env : Env} {s : State} {st : Step} {i : Nat} (h : settles env s st i) :
    (∃ ps, s.ready i = some ps) ∧ (step env s st).1.ready = upd s.ready i none ∧
    (step env s st).1.scheduled = s.scheduled ∧ (step env s st).1.pending = s.pending ∧
    (step env s st).1.failed = s.failed ∧ (step env s st).1.lowerNonce = s.lowerNonce := by
  obtain ⟨hok, hst⟩ := h
  have hv := step_view env s st
  generalize hr : step env s st = r at hv hok
  rcases hst with rfl | ⟨t, w, a, rfl⟩
  · cases hv with
    | fail e => cases hok
    | transfer _ p f d t' n bal' avt' hst => rcases hst with h | ⟨_, h⟩ <;> cases h
    | signedLower _ p f t' n t1 hst => rcases hst with h | ⟨_, h⟩ <;> cases h
    | claim _ ps hk hr' => exact ⟨⟨ps, hr'⟩, rfl, rfl, rfl, rfl, rfl⟩
  · cases hv with
    | fail e => cases hok
    | transfer _ p f d t' n bal' avt' hst => rcases hst with h | ⟨_, h⟩ <;> cases h
    | signedLower _ p f t' n t1 hst => rcases hst with h | ⟨_, h⟩ <;> cases h
    | revert _ _ _ _ ps bal' avt' hk hr' => exact ⟨⟨ps, hr'⟩, rfl, rfl, rfl, rfl, rfl⟩
    | revertFail => cases hok

theorem settles_spent {env : Env} {s : State} {st : Step} {i : Nat} (hok : LowersOk s) (h : settles env s st i) :
    Spent (step env s st).1 i := by
  obtain ⟨⟨ps, hr⟩, h1, h2, h3, h4, h5⟩ := settles_ready h
  have hc := (hok i)
  unfold Spent stageCount at *
  rw [h1, h2, h3, h4, h5, upd_same]
  rw [hr] at hc
  simp only [Option.isSome_some, Bool.toNat_true, Option.isSome_none, Bool.toNat_false] at hc ⊢
  refine ⟨?_, by omega⟩
  by_contra hge
  have := hc.2 (by omega); omega

theorem spent_no_settle {env : Env} {s : State} {st : Step} {i : Nat} (hi : Spent s i) : ¬ settles env s st i := by
  intro h
  obtain ⟨⟨ps, hr⟩, _⟩ := settles_ready h
  have := hi.2
  unfold stageCount at this
  rw [hr] at this
  simp at this

theorem settleCount_spent (hist : List (Env × Step)) (s : State) (hok : LowersOk s) (hr : Regular s hist) (i : Nat)
    (hi : Spent s i) : settleCount s i hist = 0 := by
  induction hist generalizing s with
  | nil => rfl
  | cons x rest ih =>
    obtain ⟨env, st⟩ := x
    have h2 := hr.2
    simp only [List.length_cons] at h2
    obtain ⟨h1, _, _, h4⟩ := stage_step env s st (by omega) (hr.1 (env, st) (by simp)) hok
    simp only [settleCount, spent_no_settle hi, if_false]
    rw [ih _ h1 (hr.tail hok) (h4 i hi)]

/-- **C06.** Over any history at most one Ethereum claim or revert is accepted per lower id. -/
theorem C06_settled_at_most_once (hist : List (Env × Step)) (s : State) (hok : LowersOk s) (hr : Regular s hist) (i : Nat) :
    settleCount s i hist ≤ 1 := by
  induction hist generalizing s with
  | nil => simp [settleCount]
  | cons x rest ih =>
    obtain ⟨env, st⟩ := x
    have h2 := hr.2
    simp only [List.length_cons] at h2
    obtain ⟨h1, _, _, h4⟩ := stage_step env s st (by omega) (hr.1 (env, st) (by simp)) hok
    simp only [settleCount]
    by_cases hs : settles env s st i
    · have := settleCount_spent rest (step env s st).1 h1 (hr.tail hok) i (settles_spent hok hs)
      rw [if_pos hs]; omega
    · rw [if_neg hs]
      have := ih _ h1 (hr.tail hok); omega

/-- **C06.** An accepted revert found a claimable proof, removes it, and credits exactly the refund to exactly the refunded
account, in the native currency or the token named, and touches no other balance. -/
theorem C06_revert_credits_once (env : Env) (s : State) (t : Addr) (w : Acct) (a i : Nat)
    (h : (step env s (.event (.lowerReverted t w a i))).2 = none) :
    (s.ready i).isSome ∧ ((step env s (.event (.lowerReverted t w a i))).1.ready i = none) ∧
    (∀ t' x, (step env s (.event (.lowerReverted t w a i))).1.bal t' x =
      s.bal t' x + if t' = t ∧ x = w ∧ t ≠ s.avtContract then a else 0) ∧
    (∀ x, (step env s (.event (.lowerReverted t w a i))).1.avt x =
      s.avt x + if x = w ∧ t = s.avtContract then a else 0) := by
  have hv := step_view env s (.event (.lowerReverted t w a i))
  generalize hr : step env s (.event (.lowerReverted t w a i)) = r at hv h
  cases hv with
  | fail e => cases h
  | transfer _ p f d t' n bal' avt' hst => rcases hst with h | ⟨_, h⟩ <;> cases h
  | signedLower _ p f t' n t1 hst => rcases hst with h | ⟨_, h⟩ <;> cases h
  | revertFail => cases h
  | revert _ _ _ _ ps bal' avt' hk hr' h0 hc =>
    refine ⟨by simp [hr'], by simp, ?_, ?_⟩
    · intro t' x
      rcases hc with ⟨ht, hb, _⟩ | ⟨ht, _, hb, _⟩
      · simp [hb, ht]
      · simp only [hb, upd2_apply]
        by_cases e : t' = t ∧ x = w
        · obtain ⟨rfl, rfl⟩ := e; simp [ht]
        · rw [if_neg e, if_neg (fun h => e ⟨h.1, h.2.1⟩)]; rfl
    · intro x
      rcases hc with ⟨ht, _, hb, _⟩ | ⟨ht, hb, _⟩
      · simp only [hb, upd_apply]
        by_cases e : x = w
        · subst e; simp [ht]
        · simp [e]
      · simp [hb, ht]

/-! ## C07 burn and proof -/

/-- **C07.** Running a due lower: on success the agenda entry's sender lost exactly the amount, in the token named, nobody
else's balance changed, and the stored proof parameters decode to exactly that lower; on failure no balance and no proof
table changed. -/
theorem C07_burn_matches_proof (env : Env) (s : State) (i : Nat) (c : LowerCall) (hs : s.scheduled i = some c)
    (ha : c.amount < pow128) (hi : i < pow32) (hnow : env.now < pow64) :
    let r := step env s (.dispatchScheduled i)
    (r.2 = none →
      (∃ ps, r.1.pending i = some ps ∧
        decodeLowerData ps = some ⟨c.token, c.amount, c.t1Recipient, i, c.sender, env.now⟩) ∧
      (∀ t x, r.1.bal t x + (if t = c.token ∧ x = c.sender ∧ t ≠ s.avtContract then c.amount else 0) = s.bal t x) ∧
      (∀ x, r.1.avt x + (if x = c.sender ∧ c.token = s.avtContract then c.amount else 0) = s.avt x)) ∧
    (r.2 ≠ none → r.1.bal = s.bal ∧ r.1.avt = s.avt ∧ r.1.pending = s.pending ∧ r.1.ready = s.ready ∧
      r.1.failed = s.failed) := by
  intro r
  have hv := step_view env s (.dispatchScheduled i)
  change View env s _ r at hv
  clear_value r
  cases hv with
  | fail e => simp
  | transfer _ p f d t' n bal' avt' hst => rcases hst with h | ⟨_, h⟩ <;> cases h
  | signedLower _ p f t' n t1 hst => rcases hst with h | ⟨_, h⟩ <;> cases h
  | schedFail => simp
  | schedNone _ hn => rw [hn] at hs; cases hs
  | schedLower c' _ bal' avt' hc hd hb =>
    have hcc : c' = c := by rw [hc] at hs; exact Option.some.inj hs
    subst hcc
    refine ⟨fun _ => ⟨⟨_, upd_same _ _ _, (C08_roundtrip ⟨c'.token, c'.amount, c'.t1Recipient, i, c'.sender, env.now⟩
      ha hi hnow).2⟩, ?_, ?_⟩, fun h => absurd rfl h⟩
    · intro t x
      rcases hb with ⟨ht, hb, _⟩ | ⟨ht, _, hb, hle⟩
      · simp only [hb]; rw [if_neg (by rintro ⟨e, _, hne⟩; exact hne (e.trans ht))]; rfl
      · simp only [hb, upd2_apply]
        by_cases e : t = c'.token ∧ x = c'.sender
        · obtain ⟨rfl, rfl⟩ := e; simp [ht]; omega
        · rw [if_neg e, if_neg (fun h => e ⟨h.1, h.2.1⟩)]; rfl
    · intro x
      rcases hb with ⟨ht, _, hb, _, hle, _⟩ | ⟨ht, hb, _⟩
      · simp only [hb, upd_apply]
        by_cases e : x = c'.sender
        · subst e; simp [ht]; omega
        · simp [e]
      · simp [hb, ht]

/-- **C07.** Proof parameters appear in the pending table only by such an execution (or a root one, of the same form), or by
regenerating a proof whose parameters were already stored as ready or failed, in which case no balance changes. -/
theorem C07_pending_has_origin (env : Env) (s : State) (st : Step) (i : Nat) (ps : List UInt8)
    (hnew : (step env s st).1.pending i = some ps) (hold : s.pending i ≠ some ps) :
    (∃ c, ((st = .dispatchScheduled i ∧ s.scheduled i = some c) ∨ st = .rootExecuteLower c i) ∧
        ps = concatLowerData ⟨c.token, c.amount, c.t1Recipient, i, c.sender, env.now⟩ ∧ (step env s st).2 = none) ∨
    (∃ q, st = .regenerateLowerProof q i ∧ (s.ready i = some ps ∨ s.failed i = some ps) ∧
        (step env s st).1.bal = s.bal ∧ (step env s st).1.avt = s.avt) := by
  have hv := step_view env s st
  generalize hr : step env s st = r at hv hnew
  have drop : ∀ j, upd s.pending j none i = some ps → s.pending i = some ps := by
    intro j h; rw [upd_apply] at h; split at h
    · cases h
    · exact h
  cases hv with
  | regenReady q j ps' hd hr' =>
    simp only [upd_apply] at hnew
    split at hnew
    · rename_i e; subst e; cases hnew
      exact .inr ⟨q, rfl, .inl hr', rfl, rfl⟩
    · exact absurd hnew hold
  | regenFailed q j ps' hd hr' hf =>
    simp only [upd_apply] at hnew
    split at hnew
    · rename_i e; subst e; cases hnew
      exact .inr ⟨q, rfl, .inr hf, rfl, rfl⟩
    · exact absurd hnew hold
  | rootLower c j =>
    simp only [upd_apply] at hnew
    split at hnew
    · rename_i e; subst e; cases hnew
      exact .inl ⟨c, .inr rfl, rfl, rfl⟩
    · exact absurd hnew hold
  | schedLower c j bal' avt' hc =>
    simp only [upd_apply] at hnew
    split at hnew
    · rename_i e; subst e; cases hnew
      exact .inl ⟨c, .inl ⟨rfl, hc⟩, rfl, rfl⟩
    · exact absurd hnew hold
  | proofReady j len ps' hp => exact absurd (drop j hnew) hold
  | proofTooLong j len ps' hp => exact absurd (drop j hnew) hold
  | proofFailed j ps' hp => exact absurd (drop j hnew) hold
  | _ => exact absurd hnew hold

/-! ## C09 growth lift -/

theorem perbillMul_le (p x : Nat) (h : p ≤ billion) : perbillMul p x ≤ x := by
  unfold perbillMul divNearestDown billion at *
  have h1 : p * x ≤ 1000000000 * x := Nat.mul_le_mul_right x h
  split
  · -- a remainder above one half means p * x < 10^9 * x
    have := Nat.div_add_mod (p * x) 1000000000
    omega
  · have : p * x / 1000000000 ≤ 1000000000 * x / 1000000000 := Nat.div_le_div_right h1
    omega

/-- **C09.** An accepted growth lift of `a` splits it exactly: the treasury is credited the percentage of `a` rounded to the
nearest unit (half a unit rounds down), the growth handler gets exactly the rest, both add up to `a`. -/
theorem C09_growth_split (env : Env) (s : State) (a p : Nat) (hp : env.growthPct ≤ billion)
    (h : (step env s (.event (.growthLifted a p))).2 = none) :
    ∃ share rest, share + rest = a ∧
      (2 * (share * billion) ≤ 2 * (env.growthPct * a) + billion ∧ 2 * (env.growthPct * a) ≤ 2 * (share * billion) + billion) ∧
      (step env s (.event (.growthLifted a p))).1.avt =
        (env.growthHandler rest p (upd s.avt env.treasury (s.avt env.treasury + share))).1 ∧
      (step env s (.event (.growthLifted a p))).1.bal = s.bal := by
  have hv := step_view env s (.event (.growthLifted a p))
  generalize hr : step env s (.event (.growthLifted a p)) = r at hv h
  cases hv with
  | fail e => cases h
  | transfer _ p f d t' n bal' avt' hst => rcases hst with h | ⟨_, h⟩ <;> cases h
  | signedLower _ p f t' n t1 hst => rcases hst with h | ⟨_, h⟩ <;> cases h
  | growth _ _ avt' ok hk h0 hne ho hh =>
    refine ⟨perbillMul env.growthPct a, a - perbillMul env.growthPct a, ?_, ?_, by rw [hh], rfl⟩
    · have := perbillMul_le env.growthPct a hp; omega
    · unfold perbillMul divNearestDown billion
      have := Nat.div_add_mod (env.growthPct * a) 1000000000
      have := Nat.mod_lt (env.growthPct * a) (show 0 < 1000000000 by decide)
      split <;> omega

/-! ## C10 rejected events -/

/-- **C10 (balances).** A rejected incoming event changes no token balance, whatever the event; if it is not a growth lift
it changes no native balance either, and if it is not a revert it changes no lower table. Missing from the full claim: a growth
lift rejected by the staking handler keeps the treasury credit, and a rejected revert still consumes the claimable lower
(`C10_full_claim_false`). -/
theorem C10_rejected_event_partial (env : Env) (s : State) (d : EventData) (e : Err)
    (h : (step env s (.event d)).2 = some e) :
    (step env s (.event d)).1.bal = s.bal ∧
    ((∀ a p, d ≠ .growthLifted a p) → (step env s (.event d)).1.avt = s.avt) ∧
    ((∀ t w a i, d ≠ .lowerReverted t w a i) → (step env s (.event d)).1.ready = s.ready) := by
  have hv := step_view env s (.event d)
  generalize hr : step env s (.event d) = r at hv h
  cases hv with
  | growth a p avt' ok => exact ⟨rfl, fun hh => absurd rfl (hh a p), fun _ => rfl⟩
  | revertFail t w a i => exact ⟨rfl, fun _ => rfl, fun hh => absurd rfl (hh t w a i)⟩
  | fail e => exact ⟨rfl, fun _ => rfl, fun _ => rfl⟩
  | transfer _ p f d t' n bal' avt' hst => rcases hst with h | ⟨_, h⟩ <;> cases h
  | signedLower _ p f t' n t1 hst => rcases hst with h | ⟨_, h⟩ <;> cases h
  | _ => cases h

/-! ## Concrete worlds, for the examples -/

def accA : Acct := Vector.replicate 32 1
def accB : Acct := Vector.replicate 32 2
def accT : Acct := Vector.replicate 32 9
def tok : Addr := Vector.replicate 20 3
def native : Addr := Vector.replicate 20 4
def ethR : Addr := Vector.replicate 20 5
/-- Everything succeeds, every sr25519 signature verifies, 75% to the treasury, growth handler ignores the rest. -/
def env0 : Env := { crypto := ⟨fun _ _ _ => true, fun _ _ => none⟩, frozen := fun _ => 0, scheduleOk := true, bridgeOk := true,
                    eventKnown := true, now := 7, treasury := accT, growthPct := 750000000,
                    growthHandler := fun _ _ m => (m, true) }
def s0 : State := { bal := fun t a => if t = tok ∧ a = accA then 100 else 0, avt := fun a => if a = accA then 50 else 0,
                    nonce := fun _ => 0, lowerNonce := 0, scheduled := fun _ => none, pending := fun _ => none,
                    ready := fun _ => none, failed := fun _ => none, lowersDisabled := false, avtContract := native,
                    lowerPeriod := 10 }
def proofA : Proof := ⟨accA, accB, .sr25519 (Vector.replicate 64 0)⟩
/-- A history: relayed transfer, direct lower, its execution, its proof, its claim. -/
def hist0 : List (Env × Step) :=
  [(env0, .proxy accB (.transfer proofA accA accB tok 30)), (env0, .scheduleDirectLower accA accA tok 20 ethR),
   (env0, .dispatchScheduled 0), (env0, .lowerProofResult 0 true (some 200)), (env0, .event (.lowerClaimed 0)),
   (env0, .event (.lifted tok accB 5))]

/-- C01/C02/C03/C05/C06 meet a non-trivial history: all steps succeed, 5 are lifted, 20 lowered, one authorisation consumed,
one lower settled. -/
example : mintedRun s0 tok hist0 = 5 ∧ burnedRun s0 tok hist0 = 20 ∧ (consumedRun s0 hist0).length = 1 ∧
    settleCount s0 0 hist0 = 1 ∧ (run s0 hist0).bal tok accA = 50 ∧ (run s0 hist0).bal tok accB = 35 := by
  decide +kernel

example : Supply s0 tok 100 :=
  ⟨{accA}, fun a ha => by
    have : a ≠ accA := by simpa using ha
    simp [s0, this], by simp [s0]⟩

example : LowersOk s0 ∧ Regular s0 hist0 := by
  refine ⟨fun i => ⟨by simp [stageCount, s0], fun _ => by simp [stageCount, s0]⟩, ?_, by decide⟩
  intro x hx c i
  simp only [hist0, List.mem_cons, List.not_mem_nil, or_false] at hx
  rcases hx with rfl | rfl | rfl | rfl | rfl | rfl <;> simp

example : (step env0 s0 (.event (.growthLifted 10 1))).2 = none ∧ env0.growthPct ≤ billion ∧
    (step env0 s0 (.event (.growthLifted 10 1))).1.avt accT = 7 := by decide +kernel

/-- A state with a claimable lower. -/
def sReady : State := run s0 (hist0.take 4)

example : (sReady.ready 0).isSome ∧ (step env0 sReady (.event (.lowerReverted tok accA 20 0))).2 = none := by decide +kernel

/-- A state with a due lower. -/
example : (run s0 (hist0.take 2)).scheduled 0 = some ⟨accA, tok, 20, ethR⟩ ∧
    (step env0 (run s0 (hist0.take 2)) (.dispatchScheduled 0)).2 = none ∧
    (step { env0 with bridgeOk := false } (run s0 (hist0.take 2)) (.dispatchScheduled 0)).2 = some .bridge := by decide +kernel

/-- **C10 (counterexample, F4).** The full claim is false: after an ordinary history a revert event with amount zero is rejected
and yet destroys the claimable lower, so the funds burnt for it can neither be claimed nor refunded; and a growth lift rejected
by the growth handler leaves the treasury credited. -/
theorem C10_full_claim_false :
    (∃ (s : State) (env : Env) (d : EventData) (e : Err), (s.ready 0).isSome ∧ (step env s (.event d)).2 = some e ∧
      (step env s (.event d)).1.ready 0 = none ∧ ∃ hist, s = run s0 hist) ∧
    (∃ (env : Env) (d : EventData) (e : Err), (step env s0 (.event d)).2 = some e ∧
      s0.avt env.treasury < (step env s0 (.event d)).1.avt env.treasury) :=
  ⟨⟨sReady, env0, .lowerReverted tok accA 0 0, .amountIsZero, by decide +kernel, by decide +kernel, by decide +kernel,
     hist0.take 4, rfl⟩,
   ⟨{ env0 with growthHandler := fun _ _ m => (m, false) }, .growthLifted 100 1, .growthHandler, by decide +kernel,
     by decide +kernel⟩⟩

/-! ## C11 the lowering switch -/

/-- **C11.** While lowering is disabled, no step burns any token, puts a lower on the agenda, or puts a proof into the pending
table (so nothing is executed and no proof is regenerated). -/
theorem C11_disabled_blocks_lowers (env : Env) (s : State) (st : Step) (hd : s.lowersDisabled = true) :
    (∀ t, burned env s st t = 0) ∧
    (∀ i c, (step env s st).1.scheduled i = some c → s.scheduled i = some c) ∧
    (∀ i ps, (step env s st).1.pending i = some ps → s.pending i = some ps) ∧
    ((∃ o f t a t1, st = .scheduleDirectLower o f t a t1) ∨ (∃ o p f t a t1, st = .scheduleSignedLower o p f t a t1) ∨
      (∃ q i, st = .regenerateLowerProof q i) ∨ (∃ c i, st = .rootExecuteLower c i) → (step env s st).2 ≠ none) := by
  have hv := step_view env s st
  generalize hr : step env s st = r at hv
  have dropP : ∀ j i ps, upd s.pending j none i = some ps → s.pending i = some ps := by
    intro j i ps h; rw [upd_apply] at h; split at h
    · cases h
    · exact h
  have dropS : ∀ j i c, upd s.scheduled j none i = some c → s.scheduled i = some c := by
    intro j i c h; rw [upd_apply] at h; split at h
    · cases h
    · exact h
  unfold burned
  rw [hr]
  cases hv with
  | fail st e => simp
  | transfer st p f d t' a bal' avt' hst => rcases hst with rfl | ⟨_, rfl⟩ <;> simp
  | direct f t a t1 h => rw [hd] at h; cases h
  | signedLower st p f t a t1 hst h => rw [hd] at h; cases h
  | regenReady q i ps h => rw [hd] at h; cases h
  | regenFailed q i ps h => rw [hd] at h; cases h
  | rootLower c i bal' avt' h => rw [hd] at h; cases h
  | schedLower c i bal' avt' hc h => rw [hd] at h; cases h
  | schedFail c i e hc => exact ⟨by simp, fun j c' => dropS i j c', by simp, by simp⟩
  | schedNone i hn => simp [hn]
  | cancel i => exact ⟨by simp, fun j c' => dropS i j c', by simp, by simp⟩
  | proofReady i len ps hp => exact ⟨by simp, by simp, fun j ps' => dropP i j ps', by simp⟩
  | proofTooLong i len ps hp => exact ⟨by simp, by simp, fun j ps' => dropP i j ps', by simp⟩
  | proofFailed i ps hp => exact ⟨by simp, by simp, fun j ps' => dropP i j ps', by simp⟩
  | growth a p avt' ok => cases ok <;> simp
  | _ => simp

/-- **C11.** Disabling and re-enabling restores the state exactly, hence every later behaviour. -/
theorem C11_reenable_restores (env env' : Env) (s : State) (h : s.lowersDisabled = false) :
    (step env' (step env s (.rootToggleLowering false)).1 (.rootToggleLowering true)).1 = s ∧
    (step env s (.rootToggleLowering false)).1.lowersDisabled = true := by
  refine ⟨?_, rfl⟩
  cases s
  simp only at h
  subst h
  rfl

example : ∃ s : State, s.lowersDisabled = true ∧ (s.ready 0).isSome :=
  ⟨{ sReady with lowersDisabled := true }, rfl, by decide +kernel⟩

end Verif.TokenManager
