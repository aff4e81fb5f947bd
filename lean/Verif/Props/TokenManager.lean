import Verif.Lemmas.TokenManager3
import Verif.Props.Encoding

/-!
# Properties of the token manager: C01, C02, C03
-/

namespace Verif.TokenManager
open Verif.Lower

/-! ## C01 supply of non-native tokens -/

/-- Specification: how much of token `t` a step creates. Only a successful lift, refund or deposit of that token does,
and lifts and refunds of the native token go to the native currency instead. -/
def minted (env : Env) (s : State) (st : Step) (t : Addr) : Nat :=
  if (step env s st).2 ≠ none then 0 else
    match st with
    | .event (.lifted t' _ a) => if t' = t ∧ t ≠ s.avtContract then a else 0
    | .event (.lowerReverted t' _ a _) => if t' = t ∧ t ≠ s.avtContract then a else 0
    | .interfaceLift t' _ a => if t' = t ∧ t ≠ s.avtContract then a else 0
    | .depositTokens t' _ a => if t' = t then a else 0
    | _ => 0

/-- Specification: how much of token `t` a step destroys. Only a successfully executed lower of that token does. -/
def burned (env : Env) (s : State) (st : Step) (t : Addr) : Nat :=
  if (step env s st).2 ≠ none then 0 else
    match st with
    | .rootExecuteLower c _ => if c.token = t ∧ t ≠ s.avtContract then c.amount else 0
    | .dispatchScheduled i =>
      match s.scheduled i with
      | some c => if c.token = t ∧ t ≠ s.avtContract then c.amount else 0
      | none => 0
    | _ => 0

/-- The balances of token `t` have finite support and sum up to `n`. -/
def Supply (s : State) (t : Addr) (n : Nat) : Prop :=
  ∃ S : Finset Acct, (∀ a, a ∉ S → s.bal t a = 0) ∧ ∑ a ∈ S, s.bal t a = n

theorem Supply_iff {s : State} {t : Addr} {n : Nat} : Supply s t n ↔ Total (s.bal t) n := Iff.rfl

theorem upd2_apply (m : Addr → Acct → Nat) (t t' : Addr) (w x : Acct) (v : Nat) :
    upd m t (upd (m t) w v) t' x = if t' = t ∧ x = w then v else m t' x := by
  by_cases e : t' = t
  · subst e; simp [upd_apply]
  · simp [upd_apply, e]

theorem total_at {bal : Addr → Acct → Nat} {t t' : Addr} {g : Acct → Nat} {n m : Nat} (h : Total (bal t) n)
    (hg : t = t' → Total g m) : Total (upd bal t' g t) (if t' = t then m else n) := by
  by_cases e : t = t'
  · subst e; simp only [upd_same, if_true]; exact hg rfl
  · rw [upd_ne _ _ e, if_neg (Ne.symm e)]; exact h

theorem moves_total {s : State} {t t' : Addr} {f d : Acct} {a n : Nat} {bal' : Addr → Acct → Nat} {avt' : Acct → Nat}
    (h : Total (s.bal t) n) (hm : Moves s t' f d a bal' avt') : Total (bal' t) n := by
  rcases hm with ⟨_, hb, _⟩ | ⟨_, _, hb, hle, _⟩
  · rw [hb]; exact h
  · rw [hb]
    have := total_at (t' := t') (g := moved (s.bal t') f d a) (m := n) h (fun e => by subst e; exact total_moved h f d a hle)
    simpa using this

theorem credits_total {s : State} {t t' : Addr} {w : Acct} {a n : Nat} {bal' : Addr → Acct → Nat} {avt' : Acct → Nat}
    (h : Total (s.bal t) n) (hc : Credits s t' w a bal' avt') :
    Total (bal' t) (n + if t' = t ∧ t ≠ s.avtContract then a else 0) := by
  rcases hc with ⟨ht, hb, _⟩ | ⟨ht, _, hb, _⟩
  · rw [hb, if_neg (by rintro ⟨e, hne⟩; exact hne (e ▸ ht))]; exact h
  · rw [hb]
    have := total_at (t' := t') (g := upd (s.bal t') w (s.bal t' w + a)) (m := n + a) h (fun e => by
      subst e
      have hle := h.le w
      have := h.upd w (s.bal t w + a)
      have e2 : n - s.bal t w + (s.bal t w + a) = n + a := by omega
      rwa [e2] at this)
    by_cases e : t' = t
    · subst e; simpa [ht] using this
    · simpa [e] using this

theorem burns_total {env : Env} {s : State} {t t' : Addr} {f : Acct} {a n : Nat} {bal' : Addr → Acct → Nat}
    {avt' : Acct → Nat} (h : Total (s.bal t) n) (hb : Burns env s t' f a bal' avt') :
    (if t' = t ∧ t ≠ s.avtContract then a else 0) ≤ n ∧
    Total (bal' t) (n - if t' = t ∧ t ≠ s.avtContract then a else 0) := by
  rcases hb with ⟨ht, hb, _⟩ | ⟨ht, _, hb, hle⟩
  · rw [hb, if_neg (by rintro ⟨e, hne⟩; exact hne (e ▸ ht))]; exact ⟨Nat.zero_le _, h⟩
  · rw [hb]
    have := total_at (t' := t') (g := upd (s.bal t') f (s.bal t' f - a)) (m := n - a) h (fun e => by
      subst e
      have hle' := h.le f
      have := h.upd f (s.bal t f - a)
      have e2 : n - s.bal t f + (s.bal t f - a) = n - a := by omega
      rwa [e2] at this)
    by_cases e : t' = t
    · subst e
      have hle' := h.le f
      simp only [if_true] at this
      simp only [true_and, ne_eq, ht, not_false_eq_true, if_true]
      exact ⟨by omega, this⟩
    · simpa [e] using this

/-- **C01 (every step).** Whatever the state, the environment and the step: the supply of a token changes exactly by
what the step mints and burns according to the specification above, and no more is burnt than exists. -/
theorem C01_supply_step (env : Env) (s : State) (st : Step) (t : Addr) (n : Nat) (h : Supply s t n) :
    burned env s st t ≤ n ∧ Supply (step env s st).1 t (n + minted env s st t - burned env s st t) := by
  rw [Supply_iff] at h ⊢
  have hv := step_view env s st
  generalize hr : step env s st = r at hv
  unfold minted burned
  rw [hr]
  cases hv with
  | fail st e => simpa using h
  | transfer st p f d t' a bal' avt' hst _ hm =>
    have := moves_total h hm
    rcases hst with rfl | ⟨_, rfl⟩ <;> simpa using this
  | fee t' a f d bal' avt' hm => simpa using moves_total h hm
  | feeTreasury a f bal' avt' hm => simpa using moves_total h hm
  | treasury r a avt' h0 hm => simpa using h
  | direct f t' a t1 => simpa using h
  | signedLower st p f t' a t1 hst => rcases hst with rfl | ⟨_, rfl⟩ <;> simpa using h
  | regenReady => simpa using h
  | regenFailed => simpa using h
  | rootLower c i bal' avt' hd hb => simpa using burns_total h hb
  | schedLower c i bal' avt' hc hd hb => simpa [hc] using burns_total h hb
  | schedFail c i e hc => simpa using h
  | schedNone i hc => simpa [hc] using h
  | setPeriod => simpa using h
  | toggle => simpa using h
  | setNative => simpa using h
  | cancel => simpa using h
  | lift t' w a bal' avt' hk h0 hc => simpa using credits_total h hc
  | ifaceLift t' w a bal' avt' hk h0 hc => simpa using credits_total h hc
  | deposit t' w a ho =>
    have := total_at (t' := t') (g := upd (s.bal t') w (s.bal t' w + a)) (m := n + a) h (fun e => by
      subst e
      have hle := h.le w
      have := h.upd w (s.bal t w + a)
      have e2 : n - s.bal t w + (s.bal t w + a) = n + a := by omega
      rwa [e2] at this)
    by_cases e : t' = t
    · subst e; simpa using this
    · simpa [e] using this
  | growth a p avt' ok => cases ok <;> simpa using h
  | claim => simpa using h
  | revert t' w a i ps bal' avt' hk hr' h0 hc => simpa using credits_total h hc
  | revertFail => simpa using h
  | otherEvent => simpa using h
  | proofIgnored => simpa using h
  | proofReady => simpa using h
  | proofTooLong => simpa using h
  | proofFailed => simpa using h
  | external => simpa using h

/-- Total minted / burnt over a history. -/
def mintedRun (s : State) (t : Addr) : List (Env × Step) → Nat
  | [] => 0
  | (env, st) :: rest => minted env s st t + mintedRun (step env s st).1 t rest
def burnedRun (s : State) (t : Addr) : List (Env × Step) → Nat
  | [] => 0
  | (env, st) :: rest => burned env s st t + burnedRun (step env s st).1 t rest

/-- **C01 (every history).** supply after = supply before + everything lifted, refunded and deposited − everything lowered. -/
theorem C01_supply_history (hist : List (Env × Step)) (s : State) (t : Addr) (n : Nat) (h : Supply s t n) :
    ∃ m, Supply (run s hist) t m ∧ m + burnedRun s t hist = n + mintedRun s t hist := by
  induction hist generalizing s n with
  | nil => exact ⟨n, h, rfl⟩
  | cons x rest ih =>
    obtain ⟨env, st⟩ := x
    obtain ⟨hle, h1⟩ := C01_supply_step env s st t n h
    obtain ⟨m, hm, he⟩ := ih _ _ h1
    refine ⟨m, hm, ?_⟩
    simp only [burnedRun, mintedRun]
    omega

/-- **C01.** A step that reports an error leaves every token balance of every account as it was. -/
theorem C01_failed_step_changes_no_balance (env : Env) (s : State) (st : Step) (e : Err)
    (h : (step env s st).2 = some e) (t : Addr) (a : Acct) : (step env s st).1.bal t a = s.bal t a := by
  have hv := step_view env s st
  generalize hr : step env s st = r at hv h
  cases hv <;> simp_all

theorem moves_bound {s : State} {t : Addr} {f d : Acct} {a : Nat} {bal' : Addr → Acct → Nat} {avt' : Acct → Nat}
    (h : ∀ t a, s.bal t a < pow128) (hm : Moves s t f d a bal' avt') : ∀ t a, bal' t a < pow128 := by
  rcases hm with ⟨_, hb, _⟩ | ⟨_, _, hb, hle, hov⟩
  · rw [hb]; exact h
  · rw [hb]; intro t' x
    by_cases e : t' = t
    · subst e; rw [upd_same]
      have hf := h t' f
      have hx := h t' x
      by_cases hfd : f = d
      · subst hfd; rw [moved_self hle]; exact hx
      · by_cases e1 : x = f
        · subst e1; rw [moved_from hfd]; omega
        · by_cases e2 : x = d
          · subst e2; rw [moved_to hfd]; exact hov hfd
          · rw [moved_other e1 e2]; exact hx
    · rw [upd_ne _ _ e]; exact h t' x

theorem credits_bound {s : State} {t : Addr} {w : Acct} {a : Nat} {bal' : Addr → Acct → Nat} {avt' : Acct → Nat}
    (h : ∀ t a, s.bal t a < pow128) (hc : Credits s t w a bal' avt') : ∀ t a, bal' t a < pow128 := by
  rcases hc with ⟨_, hb, _⟩ | ⟨_, _, hb, ho⟩
  · rw [hb]; exact h
  · rw [hb]; intro t' x
    rw [upd2_apply]; split
    · exact ho
    · exact h _ _

theorem burns_bound {env : Env} {s : State} {t : Addr} {w : Acct} {a : Nat} {bal' : Addr → Acct → Nat} {avt' : Acct → Nat}
    (h : ∀ t a, s.bal t a < pow128) (hc : Burns env s t w a bal' avt') : ∀ t a, bal' t a < pow128 := by
  rcases hc with ⟨_, hb, _⟩ | ⟨_, _, hb, hle⟩
  · rw [hb]; exact h
  · rw [hb]; intro t' x
    rw [upd2_apply]; split
    · have := h t w; omega
    · exact h _ _

/-- **C01.** No balance ever exceeds `u128::MAX`, in any history from a state where none does. (Balances are naturals, and
`settle*` subtract only what is there: `C01_supply_step` would fail on truncated subtraction.) -/
theorem C01_balances_fit (hist : List (Env × Step)) (s : State) (h : ∀ t a, s.bal t a < pow128) :
    ∀ t a, (run s hist).bal t a < pow128 := by
  induction hist generalizing s with
  | nil => exact h
  | cons x rest ih =>
    obtain ⟨env, st⟩ := x
    apply ih
    have hv := step_view env s st
    generalize step env s st = r at hv
    cases hv with
    | transfer st p f d t' a bal' avt' hst _ hm => exact moves_bound h hm
    | fee t' a f d bal' avt' hm => exact moves_bound h hm
    | feeTreasury a f bal' avt' hm => exact moves_bound h hm
    | rootLower c i bal' avt' hd hb => exact burns_bound h hb
    | schedLower c i bal' avt' hc hd hb => exact burns_bound h hb
    | lift t' w a bal' avt' hk h0 hc => exact credits_bound h hc
    | ifaceLift t' w a bal' avt' hk h0 hc => exact credits_bound h hc
    | revert t' w a i ps bal' avt' hk hr' h0 hc => exact credits_bound h hc
    | deposit t' w a ho =>
      intro t x
      simp only [upd2_apply]; split
      · exact ho
      · exact h _ _
    | _ => exact h

/-! ## C02 nonces and replay -/

/-- Specification: the authorisation (account, signed bytes) consumed by a step, if it succeeds. -/
def consumed (env : Env) (s : State) (st : Step) : Option (Acct × List UInt8) :=
  if (step env s st).2 ≠ none then none else
    match st with
    | .signedTransfer _ p f d t a => some (f, encodeTransfer p.relayer f d t a (s.nonce f))
    | .proxy _ (.transfer p f d t a) => some (f, encodeTransfer p.relayer f d t a (s.nonce f))
    | .scheduleSignedLower _ p f t a t1 => some (f, encodeLower p.relayer f t a t1 (s.nonce f))
    | .proxy _ (.lower p f t a t1) => some (f, encodeLower p.relayer f t a t1 (s.nonce f))
    | _ => none

/-- **C02 (every step).** A step that consumes an authorisation of `a` verified a signature over exactly those bytes (with
`a`'s current nonce in them) and increases `a`'s nonce by one; every other nonce, and every nonce in any other step, is
unchanged. -/
theorem C02_nonce_step (env : Env) (s : State) (st : Step) (a : Acct) :
    ((∃ m, consumed env s st = some (a, m)) → (step env s st).1.nonce a = (s.nonce a + 1) % pow64) ∧
    ((¬ ∃ m, consumed env s st = some (a, m)) → (step env s st).1.nonce a = s.nonce a) ∧
    (∀ m, consumed env s st = some (a, m) → ∃ p, verifySignature env.crypto p m = true) := by
  have hv := step_view env s st
  generalize hr : step env s st = r at hv
  unfold consumed
  rw [hr]
  cases hv with
  | transfer st p f d t' n bal' avt' hst hver hm =>
    rcases hst with rfl | ⟨_, rfl⟩ <;>
    · by_cases e : f = a
      · subst e; simp [wrapInc64]; exact ⟨p, hver⟩
      · simp [e, upd_ne _ _ (Ne.symm e)]
  | signedLower st p f t' n t1 hst hd h0 hn hver =>
    rcases hst with rfl | ⟨_, rfl⟩ <;>
    · by_cases e : f = a
      · subst e; simp [wrapInc64]; exact ⟨p, hver⟩
      · simp [e, upd_ne _ _ (Ne.symm e)]
  | growth a p avt' ok => cases ok <;> simp
  | _ => simp

/-- The authorisations consumed along a history. -/
def consumedRun (s : State) : List (Env × Step) → List (Acct × List UInt8)
  | [] => []
  | (env, st) :: rest => (consumed env s st).toList ++ consumedRun (step env s st).1 rest

/-- The nonce is the last eight bytes of every payload. -/
def payloadNonce (m : List UInt8) : Nat := leVal (m.drop (m.length - 8))

theorem payloadNonce_append (l : List UInt8) (n : Nat) (hn : n < pow64) : payloadNonce (l ++ leBytes 8 n) = n := by
  unfold payloadNonce
  have : (l ++ leBytes 8 n).length - 8 = l.length := by simp
  rw [this, List.drop_left, leVal_leBytes 8 n (by rw [← pow64_eq]; exact hn)]

theorem payloadNonce_transfer (r f d : Acct) (t : Addr) (a n : Nat) (hn : n < pow64) :
    payloadNonce (encodeTransfer r f d t a n) = n := by
  unfold encodeTransfer
  simp only [← List.append_assoc]
  exact payloadNonce_append _ n hn

theorem payloadNonce_lower (r f : Acct) (t : Addr) (a : Nat) (t1 : Addr) (n : Nat) (hn : n < pow64) :
    payloadNonce (encodeLower r f t a t1 n) = n := by
  unfold encodeLower
  simp only [← List.append_assoc]
  exact payloadNonce_append _ n hn

theorem consumed_nonce {env : Env} {s : State} {st : Step} {a : Acct} {m : List UInt8} (hn : s.nonce a < pow64)
    (h : consumed env s st = some (a, m)) : payloadNonce m = s.nonce a := by
  unfold consumed at h
  split at h
  · cases h
  · cases st with
    | proxy r c =>
      cases c with
      | transfer => simp only [Option.some.injEq, Prod.mk.injEq] at h; obtain ⟨rfl, rfl⟩ := h; exact payloadNonce_transfer _ _ _ _ _ _ hn
      | lower => simp only [Option.some.injEq, Prod.mk.injEq] at h; obtain ⟨rfl, rfl⟩ := h; exact payloadNonce_lower _ _ _ _ _ _ hn
      | unsupported => cases h
    | signedTransfer => simp only [Option.some.injEq, Prod.mk.injEq] at h; obtain ⟨rfl, rfl⟩ := h; exact payloadNonce_transfer _ _ _ _ _ _ hn
    | scheduleSignedLower => simp only [Option.some.injEq, Prod.mk.injEq] at h; obtain ⟨rfl, rfl⟩ := h; exact payloadNonce_lower _ _ _ _ _ _ hn
    | _ => cases h

theorem consumedRun_nonce (hist : List (Env × Step)) (s : State) (hb : ∀ a, s.nonce a + hist.length ≤ pow64) :
    ∀ x ∈ consumedRun s hist, s.nonce x.1 ≤ payloadNonce x.2 := by
  induction hist generalizing s with
  | nil => simp [consumedRun]
  | cons x rest ih =>
    obtain ⟨env, st⟩ := x
    intro y hy
    rw [consumedRun, List.mem_append] at hy
    have hlt : ∀ a, s.nonce a < pow64 := fun a => by have := hb a; simp at this; omega
    rcases hy with hy | hy
    · rw [Option.mem_toList] at hy
      obtain ⟨a, m⟩ := y
      exact Nat.le_of_eq (consumed_nonce (hlt a) hy).symm
    · have hstep : ∀ a, s.nonce a ≤ (step env s st).1.nonce a ∧
          (step env s st).1.nonce a + rest.length ≤ pow64 ∨ (s.nonce a + 1 = pow64 ∧ rest.length = 0) := by
        intro a
        have hba := hb a
        simp only [List.length_cons] at hba
        obtain ⟨h1, h2, _⟩ := C02_nonce_step env s st a
        by_cases hc : ∃ m, consumed env s st = some (a, m)
        · have := h1 hc
          by_cases hw : s.nonce a + 1 < pow64
          · rw [Nat.mod_eq_of_lt hw] at this; omega
          · right; omega
        · have := h2 hc; omega
      by_cases hz : rest.length = 0
      · have : rest = [] := List.eq_nil_of_length_eq_zero hz
        subst this; simp [consumedRun] at hy
      · have := ih (step env s st).1 (fun a => by rcases hstep a with h | h <;> omega) y hy
        rcases hstep y.1 with h | h <;> omega

/-- **C02 (every history).** The same signed bytes are accepted at most once for an account, over any history of fewer than
2^64 steps beyond the largest nonce in use (the `u64` nonce wraps after that). -/
theorem C02_never_replayed (hist : List (Env × Step)) (s : State) (hb : ∀ a, s.nonce a + hist.length ≤ pow64) :
    (consumedRun s hist).Nodup := by
  induction hist generalizing s with
  | nil => simp [consumedRun]
  | cons x rest ih =>
    obtain ⟨env, st⟩ := x
    rw [consumedRun]
    have hlt : ∀ a, s.nonce a < pow64 := fun a => by have := hb a; simp at this; omega
    by_cases hz : rest = []
    · subst hz; simp only [consumedRun, List.append_nil]
      cases consumed env s st <;> simp
    · have hpos : 0 < rest.length := List.length_pos_iff.mpr hz
      have hb' : ∀ a, (step env s st).1.nonce a + rest.length ≤ pow64 := by
        intro a
        have hba := hb a
        simp only [List.length_cons] at hba
        obtain ⟨h1, h2, _⟩ := C02_nonce_step env s st a
        by_cases hc : ∃ m, consumed env s st = some (a, m)
        · have := h1 hc
          rw [Nat.mod_eq_of_lt (by omega)] at this; omega
        · have := h2 hc; omega
      cases hc : consumed env s st with
      | none => simpa using ih _ hb'
      | some y =>
        obtain ⟨a, m⟩ := y
        simp only [Option.toList_some, List.cons_append, List.nil_append, List.nodup_cons]
        refine ⟨fun hmem => ?_, ih _ hb'⟩
        have h1 := consumedRun_nonce rest _ hb' _ hmem
        have h2 := consumed_nonce (hlt a) hc
        have h3 := (C02_nonce_step env s st a).1 ⟨m, hc⟩
        have hba := hb a
        simp only [List.length_cons] at hba
        rw [Nat.mod_eq_of_lt (by omega)] at h3
        simp only at h1
        omega

/-! ## C03 only authorised funds move -/

/-- Specification: the step, executed in state `s`, is authorised by `a` (or by root) to take `n` units of token `t` from `a`. -/
def Authorised (env : Env) (s : State) (st : Step) (a : Acct) (t : Addr) (n : Nat) : Prop :=
  -- `a` itself submitted the transfer, with a valid proof over exactly these parameters
  (∃ p dst, st = .signedTransfer a p a dst t n ∧
      verifySignature env.crypto p (encodeTransfer p.relayer a dst t n (s.nonce a)) = true) ∨
  -- a relayer submitted it, named as the relayer in the proof, signed by `a` over exactly these parameters
  (∃ p dst, st = .proxy p.relayer (.transfer p a dst t n) ∧ p.signer = a ∧
      verifySignature env.crypto p (encodeTransfer p.relayer a dst t n (s.nonce a)) = true) ∨
  -- a lower that is on the agenda for `a` (see `C03_agenda_only_by_sender` for how it got there)
  (∃ i t1, st = .dispatchScheduled i ∧ s.scheduled i = some ⟨a, t, n, t1⟩) ∨
  -- root
  (∃ i t1, st = .rootExecuteLower ⟨a, t, n, t1⟩ i) ∨ (∃ r, st = .rootTreasury r n ∧ a = env.treasury) ∨
  -- a fee `a` authorised towards the proxy or anchor pallet
  (∃ r, st = .payFee t n a r) ∨ (st = .payTreasury n a ∧ t = s.avtContract)

theorem moves_decrease {s : State} {t t' : Addr} {f d a : Acct} {n : Nat} {bal' : Addr → Acct → Nat} {avt' : Acct → Nat}
    (hm : Moves s t' f d n bal' avt') (h : bal' t a < s.bal t a) : a = f ∧ t = t' ∧ bal' t a + n = s.bal t a := by
  rcases hm with ⟨_, hb, _⟩ | ⟨_, _, hb, hle, hov⟩
  · rw [hb] at h; omega
  · by_cases e : t = t'
    · subst e
      rw [hb, upd_same] at h ⊢
      by_cases hfd : f = d
      · subst hfd; rw [moved_self hle] at h; omega
      · by_cases e1 : a = f
        · subst e1; rw [moved_from hfd] at h ⊢; exact ⟨rfl, rfl, by omega⟩
        · by_cases e2 : a = d
          · subst e2; rw [moved_to hfd] at h; omega
          · rw [moved_other e1 e2] at h; omega
    · rw [hb, upd_ne _ _ e] at h; omega

theorem credits_decrease {s : State} {t t' : Addr} {w a : Acct} {n : Nat} {bal' : Addr → Acct → Nat} {avt' : Acct → Nat}
    (hm : Credits s t' w n bal' avt') : ¬ bal' t a < s.bal t a := by
  rcases hm with ⟨_, hb, _⟩ | ⟨_, _, hb, _⟩
  · rw [hb]; omega
  · rw [hb, upd2_apply]; split
    · rename_i e; obtain ⟨rfl, rfl⟩ := e; omega
    · omega

theorem burns_decrease {env : Env} {s : State} {t t' : Addr} {f a : Acct} {n : Nat} {bal' : Addr → Acct → Nat}
    {avt' : Acct → Nat} (hm : Burns env s t' f n bal' avt') (h : bal' t a < s.bal t a) :
    a = f ∧ t = t' ∧ bal' t a + n = s.bal t a := by
  rcases hm with ⟨_, hb, _⟩ | ⟨_, _, hb, hle⟩
  · rw [hb] at h; omega
  · rw [hb] at h ⊢
    rw [upd2_apply] at h ⊢
    split at h
    · rename_i e; rw [if_pos e]; obtain ⟨rfl, rfl⟩ := e; exact ⟨rfl, rfl, by omega⟩
    · omega

/-- **C03 (token balances).** If a step lowers `a`'s balance of token `t`, then it was authorised for exactly the amount by
which the balance fell. -/
theorem C03_only_authorised_debits (env : Env) (s : State) (st : Step) (a : Acct) (t : Addr)
    (h : (step env s st).1.bal t a < s.bal t a) :
    ∃ n, Authorised env s st a t n ∧ (step env s st).1.bal t a + n = s.bal t a := by
  have hv := step_view env s st
  generalize hr : step env s st = r at hv h
  cases hv with
  | transfer st p f d t' n bal' avt' hst hver hm =>
    obtain ⟨rfl, rfl, he⟩ := moves_decrease hm h
    refine ⟨n, ?_, he⟩
    rcases hst with rfl | ⟨hs, rfl⟩
    · exact .inl ⟨p, d, rfl, hver⟩
    · exact .inr (.inl ⟨p, d, rfl, hs, hver⟩)
  | fee t' n f d bal' avt' hm =>
    obtain ⟨rfl, rfl, he⟩ := moves_decrease hm h
    exact ⟨n, .inr (.inr (.inr (.inr (.inr (.inl ⟨d, rfl⟩))))), he⟩
  | feeTreasury n f bal' avt' hm =>
    obtain ⟨rfl, rfl, he⟩ := moves_decrease hm h
    exact ⟨n, .inr (.inr (.inr (.inr (.inr (.inr ⟨rfl, rfl⟩))))), he⟩
  | rootLower c i bal' avt' hd hb =>
    obtain ⟨rfl, rfl, he⟩ := burns_decrease hb h
    exact ⟨c.amount, .inr (.inr (.inr (.inl ⟨i, c.t1Recipient, rfl⟩))), he⟩
  | schedLower c i bal' avt' hc hd hb =>
    obtain ⟨rfl, rfl, he⟩ := burns_decrease hb h
    exact ⟨c.amount, .inr (.inr (.inl ⟨i, c.t1Recipient, rfl, hc⟩)), he⟩
  | lift t' w n bal' avt' hk h0 hc => exact absurd h (credits_decrease hc)
  | ifaceLift t' w n bal' avt' hk h0 hc => exact absurd h (credits_decrease hc)
  | revert t' w n i ps bal' avt' hk hr' h0 hc => exact absurd h (credits_decrease hc)
  | deposit t' w n ho =>
    simp only [upd2_apply] at h
    split at h
    · rename_i e; obtain ⟨rfl, rfl⟩ := e; omega
    · omega
  | _ => simp at h

theorem moves_decrease_avt {s : State} {t' : Addr} {f d a : Acct} {n : Nat} {bal' : Addr → Acct → Nat} {avt' : Acct → Nat}
    (hm : Moves s t' f d n bal' avt') (h : avt' a < s.avt a) : a = f ∧ t' = s.avtContract ∧ avt' a + n = s.avt a := by
  rcases hm with ⟨ht, _, hb⟩ | ⟨_, hb, _⟩
  · rcases hb with ⟨_, hb⟩ | ⟨hfd, hb, hle, _⟩
    · rw [hb] at h; omega
    · rw [hb] at h ⊢
      by_cases e1 : a = f
      · subst e1; rw [moved_from hfd] at h ⊢; exact ⟨rfl, ht, by omega⟩
      · by_cases e2 : a = d
        · subst e2; rw [moved_to hfd] at h; omega
        · rw [moved_other e1 e2] at h; omega
  · rw [hb] at h; omega

theorem burns_decrease_avt {env : Env} {s : State} {t' : Addr} {f a : Acct} {n : Nat} {bal' : Addr → Acct → Nat}
    {avt' : Acct → Nat} (hm : Burns env s t' f n bal' avt') (h : avt' a < s.avt a) :
    a = f ∧ t' = s.avtContract ∧ avt' a + n = s.avt a := by
  rcases hm with ⟨ht, _, hb, _, hle, _⟩ | ⟨_, hb, _⟩
  · rw [hb] at h ⊢
    simp only [upd_apply] at h ⊢
    split at h
    · rename_i e; subst e; exact ⟨rfl, ht, by simp; omega⟩
    · omega
  · rw [hb] at h; omega

theorem credits_decrease_avt {s : State} {t' : Addr} {w a : Acct} {n : Nat} {bal' : Addr → Acct → Nat} {avt' : Acct → Nat}
    (hm : Credits s t' w n bal' avt') : ¬ avt' a < s.avt a := by
  rcases hm with ⟨_, _, hb, _⟩ | ⟨_, hb, _⟩
  · rw [hb]; simp only [upd_apply]; split
    · rename_i e; subst e; omega
    · omega
  · rw [hb]; omega

/-- **C03 (native balances).** The same for the native currency, as far as this pallet moves it: every step except activity
of other pallets (`external`, and the staking growth handler) only lowers `a`'s native balance when authorised for exactly
that amount of the native token. -/
theorem C03_only_authorised_native_debits (env : Env) (s : State) (st : Step) (a : Acct)
    (hext : ∀ m, st ≠ .external m) (hgrow : ∀ x p, st ≠ .event (.growthLifted x p))
    (h : (step env s st).1.avt a < s.avt a) :
    ∃ n, Authorised env s st a s.avtContract n ∧ (step env s st).1.avt a + n = s.avt a := by
  have hv := step_view env s st
  generalize hr : step env s st = r at hv h
  cases hv with
  | transfer st p f d t' n bal' avt' hst hver hm =>
    obtain ⟨rfl, rfl, he⟩ := moves_decrease_avt hm h
    refine ⟨n, ?_, he⟩
    rcases hst with rfl | ⟨hs, rfl⟩
    · exact .inl ⟨p, d, rfl, hver⟩
    · exact .inr (.inl ⟨p, d, rfl, hs, hver⟩)
  | fee t' n f d bal' avt' hm =>
    obtain ⟨rfl, rfl, he⟩ := moves_decrease_avt hm h
    exact ⟨n, .inr (.inr (.inr (.inr (.inr (.inl ⟨d, rfl⟩))))), he⟩
  | feeTreasury n f bal' avt' hm =>
    obtain ⟨rfl, _, he⟩ := moves_decrease_avt hm h
    exact ⟨n, .inr (.inr (.inr (.inr (.inr (.inr ⟨rfl, rfl⟩))))), he⟩
  | treasury r n avt' h0 hm =>
    obtain ⟨rfl, _, he⟩ := moves_decrease_avt hm h
    exact ⟨n, .inr (.inr (.inr (.inr (.inl ⟨r, rfl, rfl⟩)))), he⟩
  | rootLower c i bal' avt' hd hb =>
    obtain ⟨rfl, ht, he⟩ := burns_decrease_avt hb h
    exact ⟨c.amount, .inr (.inr (.inr (.inl ⟨i, c.t1Recipient, by rw [← ht]⟩))), he⟩
  | schedLower c i bal' avt' hc hd hb =>
    obtain ⟨rfl, ht, he⟩ := burns_decrease_avt hb h
    exact ⟨c.amount, .inr (.inr (.inl ⟨i, c.t1Recipient, rfl, by rw [← ht]; exact hc⟩)), he⟩
  | lift t' w n bal' avt' hk h0 hc => exact absurd h (credits_decrease_avt hc)
  | ifaceLift t' w n bal' avt' hk h0 hc => exact absurd h (credits_decrease_avt hc)
  | revert t' w n i ps bal' avt' hk hr' h0 hc => exact absurd h (credits_decrease_avt hc)
  | growth x p avt' ok => exact absurd rfl (hgrow x p)
  | external m => exact absurd rfl (hext m)
  | _ => simp at h

/-- **C03.** A lower gets on the agenda only by a request of its sender: submitted by the sender directly, or carrying a
signature over exactly its parameters (relayer, sender, token, amount, Ethereum recipient and the sender's current nonce) and,
if relayed, signed by the sender and submitted by the relayer named in it. -/
theorem C03_agenda_only_by_sender (env : Env) (s : State) (st : Step) (i : Nat) (c : LowerCall)
    (hnew : (step env s st).1.scheduled i = some c) (hold : s.scheduled i ≠ some c) :
    i = s.lowerNonce ∧
    (st = .scheduleDirectLower c.sender c.sender c.token c.amount c.t1Recipient ∨
     (∃ p, st = .scheduleSignedLower c.sender p c.sender c.token c.amount c.t1Recipient ∧
        verifySignature env.crypto p
          (encodeLower p.relayer c.sender c.token c.amount c.t1Recipient (s.nonce c.sender)) = true) ∨
     (∃ p, st = .proxy p.relayer (.lower p c.sender c.token c.amount c.t1Recipient) ∧ p.signer = c.sender ∧
        verifySignature env.crypto p
          (encodeLower p.relayer c.sender c.token c.amount c.t1Recipient (s.nonce c.sender)) = true)) := by
  have hv := step_view env s st
  generalize hr : step env s st = r at hv hnew
  cases hv with
  | direct f t a t1 =>
    simp only [upd_apply] at hnew
    split at hnew
    · rename_i e; cases hnew; exact ⟨e, .inl rfl⟩
    · exact absurd hnew hold
  | signedLower st p f t a t1 hst hd h0 hn hver =>
    simp only [upd_apply] at hnew
    split at hnew
    · rename_i e; cases hnew
      refine ⟨e, ?_⟩
      rcases hst with rfl | ⟨hs, rfl⟩
      · exact .inr (.inl ⟨p, rfl, hver⟩)
      · exact .inr (.inr ⟨p, rfl, hs, hver⟩)
    · exact absurd hnew hold
  | schedLower c' j =>
    simp only [upd_apply] at hnew
    split at hnew
    · cases hnew
    · exact absurd hnew hold
  | schedFail c' j =>
    simp only [upd_apply] at hnew
    split at hnew
    · cases hnew
    · exact absurd hnew hold
  | cancel j =>
    simp only [upd_apply] at hnew
    split at hnew
    · cases hnew
    · exact absurd hnew hold
  | _ => exact absurd hnew hold

end Verif.TokenManager
