import Verif.Model.Proxy
import Verif.Props.ProxyCalls
import Mathlib.Data.List.Induction

/-!
# C61, C62: proxied calls and relayer fees
-/

namespace Verif.Proxy
open Verif.ProxyCalls

variable {R : Type}

/-! ## Specification -/

/-- `signer` authorised `c` for relayer `relayer`: the proof in the call names them both, and its signature verifies over the
bytes of the call (which determine the call, its arguments, the relayer and the nonce: C72). -/
def Authorised (rt : Runtime R) (w : World R) (signer relayer : Acct) (c : Call) : Prop :=
  ∃ p m, c.proof? = some p ∧ p.signer = signer ∧ p.relayer = relayer ∧ payload (rt.nonces w) c = some m ∧
    verifySignature rt.crypto p m = true

/-- A dispatch observation. -/
def isDispatch : Obs → Bool
  | .dispatched .. => true
  | _ => false

/-- A payment observation of `a`. -/
def paidBy (a : Acct) : Obs → Bool
  | .paid _ i _ => i.payer == a
  | _ => false

/-- The nonce of a payment observation. -/
def paidNonce : Obs → Nat
  | .paid _ _ n => n
  | _ => 0

/-! ## Proofs -/

theorem valid_authorised (rt : Runtime R) (w : World R) (p : Proof) (c : Call) (hp : c.proof? = some p)
    (h : signatureIsValid rt.crypto (rt.nonces w) c = true) : Authorised rt w p.signer p.relayer c := by
  unfold signatureIsValid at h
  rw [hp] at h
  cases hm : payload (rt.nonces w) c with
  | none => rw [hm] at h; cases h
  | some m => rw [hm] at h; exact ⟨p, m, hp, rfl, rfl, hm, h⟩

/-- The outcomes of `charge_fee`. -/
theorem chargeFee_cases (rt : Runtime R) (env : TokenManager.Env) (p : Proof) (i : PaymentInfo) (s : State R) :
    (∃ e, chargeFee rt env p i s = (s, some e)) ∨
    (∃ tm, paymentAuthorised rt.crypto p i (s.payNonce i.payer) = true ∧
      TokenManager.settleTransfer env s.world.tm i.token i.payer i.recipient i.amount.val = (tm, none) ∧
      chargeFee rt env p i s = (paidState p i tm s, none)) := by
  unfold chargeFee
  by_cases h : paymentAuthorised rt.crypto p i (s.payNonce i.payer) = true
  · rw [if_pos h]
    rcases hs : TokenManager.settleTransfer env s.world.tm i.token i.payer i.recipient i.amount.val with ⟨tm, o⟩
    cases o with
    | none => exact Or.inr ⟨tm, h, rfl, rfl⟩
    | some e => exact Or.inl ⟨_, rfl⟩
  · rw [if_neg h]; exact Or.inl ⟨_, rfl⟩

/-- The outcomes of the inner call. -/
theorem runInner_cases (rt : Runtime R) (r : Acct) (p : Proof) (c : Call) (s : State R) :
    (signatureIsValid rt.crypto (rt.nonces s.world) c = true ∧ ∃ w, rt.dispatch p.signer c s.world = some w ∧
      runInner rt r p c s = { s with world := w, log := s.log ++ [.dispatched p.signer c true] }) ∨
    (signatureIsValid rt.crypto (rt.nonces s.world) c = true ∧ rt.dispatch p.signer c s.world = none ∧
      runInner rt r p c s = { s with log := s.log ++ [.dispatched p.signer c false] }) ∨
    (signatureIsValid rt.crypto (rt.nonces s.world) c = false ∧
      runInner rt r p c s = { s with log := s.log ++ [.rejected r c] }) := by
  unfold runInner
  by_cases h : signatureIsValid rt.crypto (rt.nonces s.world) c = true
  · rw [if_pos h]
    cases hd : rt.dispatch p.signer c s.world with
    | some w => exact Or.inl ⟨h, w, rfl, rfl⟩
    | none => exact Or.inr (Or.inl ⟨h, rfl, rfl⟩)
  · rw [if_neg h]; exact Or.inr (Or.inr ⟨by simpa using h, rfl⟩)

/-- The outcomes of `proxy`: an error without effects, or the inner call after an optional fee. -/
theorem proxy_cases (rt : Runtime R) (env : TokenManager.Env) (r : Acct) (c : Call) (pay : Option PaymentInfo) (s : State R) :
    (∃ e, proxy rt env r c pay s = (s, some e)) ∨
    (∃ p, c.proof? = some p ∧ r = p.relayer ∧ pay = none ∧ proxy rt env r c pay s = (runInner rt r p c s, none)) ∨
    (∃ p i s1, c.proof? = some p ∧ r = p.relayer ∧ pay = some i ∧ chargeFee rt env p i s = (s1, none) ∧
      proxy rt env r c pay s = (runInner rt r p c s1, none)) := by
  unfold proxy
  cases hp : c.proof? with
  | none => exact Or.inl ⟨_, rfl⟩
  | some p =>
    dsimp only
    by_cases hr : r = p.relayer
    · rw [if_neg (by simpa using hr)]
      cases pay with
      | none => exact Or.inr (Or.inl ⟨p, rfl, hr, rfl, rfl⟩)
      | some i =>
        dsimp only
        rcases hc : chargeFee rt env p i s with ⟨s1, o⟩
        cases o with
        | some e => exact Or.inl ⟨e, rfl⟩
        | none => exact Or.inr (Or.inr ⟨p, i, s1, rfl, hr, rfl, hc, rfl⟩)
    · rw [if_pos hr]; exact Or.inl ⟨_, rfl⟩

/-! ## C61 -/

/-- C61: whatever a proxied call adds to the observations, a dispatch among it is of the submitted call, with the authority
of an account that authorised exactly this call for the submitting relayer; and there is at most one. The world the
authorisation is checked against is the one after the fee payment. -/
theorem C61_dispatch_only_if_authorised (rt : Runtime R) (env : TokenManager.Env) (relayer : Acct) (c : Call)
    (pay : Option PaymentInfo) (s : State R) :
    ∃ new, (proxy rt env relayer c pay s).1.log = s.log ++ new ∧ new.countP isDispatch ≤ 1 ∧
      ∀ signer d ok, Obs.dispatched signer d ok ∈ new →
        d = c ∧ ∃ tm, Authorised rt { s.world with tm := tm } signer relayer c := by
  have inner : ∀ (p : Proof) (s1 : State R), c.proof? = some p → relayer = p.relayer → (∃ tm, s1.world = { s.world with tm := tm }) →
      ∃ new, (runInner rt relayer p c s1).log = s1.log ++ new ∧ new.countP isDispatch ≤ 1 ∧
      ∀ signer d ok, Obs.dispatched signer d ok ∈ new →
        d = c ∧ ∃ tm, Authorised rt { s.world with tm := tm } signer relayer c := by
    intro p s1 hp hr hw
    obtain ⟨tm, hw⟩ := hw
    rcases runInner_cases rt relayer p c s1 with ⟨hv, w, -, he⟩ | ⟨hv, -, he⟩ | ⟨-, he⟩ <;> rw [he]
    · refine ⟨_, rfl, by simp [isDispatch], ?_⟩
      intro signer d ok hm
      simp only [List.mem_cons, Obs.dispatched.injEq, List.not_mem_nil, or_false] at hm
      obtain ⟨rfl, rfl, -⟩ := hm
      exact ⟨rfl, tm, by rw [← hw, hr]; exact valid_authorised rt _ p _ hp hv⟩
    · refine ⟨_, rfl, by simp [isDispatch], ?_⟩
      intro signer d ok hm
      simp only [List.mem_cons, Obs.dispatched.injEq, List.not_mem_nil, or_false] at hm
      obtain ⟨rfl, rfl, -⟩ := hm
      exact ⟨rfl, tm, by rw [← hw, hr]; exact valid_authorised rt _ p _ hp hv⟩
    · refine ⟨_, rfl, by simp [isDispatch], ?_⟩
      intro signer d ok hm
      simp at hm
  rcases proxy_cases rt env relayer c pay s with ⟨e, h⟩ | ⟨p, hp, hr, -, h⟩ | ⟨p, i, s1, hp, hr, -, hc, h⟩ <;> rw [h]
  · exact ⟨[], by simp, by simp, by simp⟩
  · exact inner p s hp hr ⟨s.world.tm, rfl⟩
  · rcases chargeFee_cases rt env p i s with ⟨e, h2⟩ | ⟨tm, -, -, h2⟩
    · rw [h2] at hc; simp at hc
    · rw [h2] at hc
      simp only [Prod.mk.injEq, and_true] at hc
      subst hc
      obtain ⟨new, h3, h4, h5⟩ := inner p (paidState p i tm s) hp hr ⟨tm, rfl⟩
      refine ⟨.paid p i (s.payNonce i.payer).val :: new, by rw [h3]; simp [paidState], by simpa [isDispatch] using h4, ?_⟩
      intro signer d ok hm
      simp only [List.mem_cons, reduceCtorEq, false_or] at hm
      exact h5 signer d ok hm

/-- C61: a call outside the supported list, or one whose proof names another relayer, is refused without any effect. -/
theorem C61_unsupported_or_foreign_relayer_no_effect (rt : Runtime R) (env : TokenManager.Env) (relayer : Acct) (c : Call)
    (pay : Option PaymentInfo) (s : State R) (h : c.proof? = none ∨ ∃ p, c.proof? = some p ∧ p.relayer ≠ relayer) :
    (proxy rt env relayer c pay s).1 = s ∧ (proxy rt env relayer c pay s).2 ≠ none := by
  rcases proxy_cases rt env relayer c pay s with ⟨e, he⟩ | ⟨p, hp, hr, -, he⟩ | ⟨p, i, s1, hp, hr, -, hc, he⟩
  · rw [he]; simp
  · rcases h with h | ⟨q, hq, hne⟩
    · rw [h] at hp; cases hp
    · rw [hq] at hp; cases hp; exact absurd hr.symm hne
  · rcases h with h | ⟨q, hq, hne⟩
    · rw [h] at hp; cases hp
    · rw [hq] at hp; cases hp; exact absurd hr.symm hne

/-- C61: any call outside the supported kinds (`other`) is refused without any effect, whatever comes with it. -/
theorem C61_unlisted_call_no_effect (rt : Runtime R) (env : TokenManager.Env) (relayer : Acct) (k : Nat) (pay : Option PaymentInfo)
    (s : State R) : (proxy rt env relayer (.other k) pay s).1 = s ∧ (proxy rt env relayer (.other k) pay s).2 ≠ none :=
  C61_unsupported_or_foreign_relayer_no_effect rt env relayer (.other k) pay s (Or.inl rfl)

/-- C61: without a valid signature of the named signer nothing is dispatched and, with no fee attached, nothing changes but
the failure event. -/
theorem C61_invalid_signature_no_effect (rt : Runtime R) (env : TokenManager.Env) (relayer signer : Acct) (c : Call)
    (s : State R) (p : Proof) (hp : c.proof? = some p) (hs : p.signer = signer)
    (h : ¬ Authorised rt s.world signer relayer c) :
    (proxy rt env relayer c none s).1.world = s.world ∧ (proxy rt env relayer c none s).1.payNonce = s.payNonce ∧
    ∀ d ok, Obs.dispatched signer d ok ∈ (proxy rt env relayer c none s).1.log → Obs.dispatched signer d ok ∈ s.log := by
  rcases proxy_cases rt env relayer c none s with ⟨e, he⟩ | ⟨q, hq, hr, -, he⟩ | ⟨q, i, s1, -, -, hn, -⟩
  · rw [he]; exact ⟨rfl, rfl, fun _ _ h => h⟩
  · have hqp : q = p := Option.some.inj (hq.symm.trans hp)
    subst hqp
    rw [he]
    rcases runInner_cases rt relayer q c s with ⟨hv, -⟩ | ⟨hv, -⟩ | ⟨-, hi⟩
    · exact absurd (hr ▸ hs ▸ valid_authorised rt _ q _ hq hv) h
    · exact absurd (hr ▸ hs ▸ valid_authorised rt _ q _ hq hv) h
    · rw [hi]; exact ⟨rfl, rfl, by intro d ok hm; simpa using hm⟩
  · cases hn

/-! ## C62 -/

/-- Invariant: the nonces of the payments of `a` are 0, 1, 2, ... (modulo 2^64), the stored nonce is the next, and each payment
carries a valid authorisation. -/
structure Inv (rt : Runtime R) (s : State R) : Prop where
  nonces : ∀ a, (s.log.filter (paidBy a)).map paidNonce = (List.range (s.log.countP (paidBy a))).map (· % 2 ^ 64)
  next : ∀ a, (s.payNonce a).val = s.log.countP (paidBy a) % 2 ^ 64
  signed : ∀ p i n, Obs.paid p i n ∈ s.log → ∃ m : U64, m.val = n ∧ paymentAuthorised rt.crypto p i m = true

theorem Inv.other {rt : Runtime R} {s : State R} (h : Inv rt s) (w : World R) (o : Obs) (ho : ∀ a, paidBy a o = false) :
    Inv rt { s with world := w, log := s.log ++ [o] } := by
  refine ⟨fun a => ?_, fun a => ?_, fun p i n hm => ?_⟩
  · simp [List.filter_append, List.countP_append, ho, h.nonces a]
  · simp [List.countP_append, ho, h.next a]
  · rcases List.mem_append.mp hm with hm | hm
    · exact h.signed p i n hm
    · have ho' : o = .paid p i n := by simp only [List.mem_cons, List.not_mem_nil, or_false] at hm; exact hm.symm
      have := ho i.payer
      rw [ho'] at this; simp [paidBy] at this

theorem runInner_inv {rt : Runtime R} {s : State R} (h : Inv rt s) (r : Acct) (p : Proof) (c : Call) :
    Inv rt (runInner rt r p c s) := by
  rcases runInner_cases rt r p c s with ⟨-, w, -, he⟩ | ⟨-, -, he⟩ | ⟨-, he⟩ <;> rw [he]
  · exact h.other w _ (by simp [paidBy])
  · exact h.other s.world _ (by simp [paidBy])
  · exact h.other s.world _ (by simp [paidBy])

theorem chargeFee_inv {rt : Runtime R} {s : State R} (h : Inv rt s) (env : TokenManager.Env) (p : Proof) (i : PaymentInfo) :
    Inv rt (chargeFee rt env p i s).1 := by
  rcases chargeFee_cases rt env p i s with ⟨e, he⟩ | ⟨tm, ha, -, he⟩ <;> rw [he]
  · exact h
  · refine ⟨fun a => ?_, fun a => ?_, fun q j n hm => ?_⟩
    · by_cases hai : i.payer = a
      · subst hai
        simp [paidState, List.filter_append, List.countP_append, paidBy, h.nonces, List.range_succ, paidNonce, h.next]
      · simp [paidState, List.filter_append, List.countP_append, paidBy, hai, h.nonces a]
    · by_cases hai : i.payer = a
      · subst hai
        simp [paidState, List.countP_append, paidBy, Fin.val_add, h.next]
      · simp [paidState, List.countP_append, paidBy, hai, upd, Ne.symm hai, h.next a]
    · rcases List.mem_append.mp hm with hm | hm
      · exact h.signed q j n hm
      · simp only [List.mem_cons, Obs.paid.injEq, List.not_mem_nil, or_false] at hm
        obtain ⟨rfl, rfl, rfl⟩ := hm
        exact ⟨_, rfl, ha⟩

theorem step_inv {rt : Runtime R} {s : State R} (h : Inv rt s) (x : Step R) : Inv rt (step rt s x) := by
  cases x with
  | elsewhere f => exact ⟨h.nonces, h.next, h.signed⟩
  | proxy env r c pay =>
    simp only [step]
    rcases proxy_cases rt env r c pay s with ⟨e, he⟩ | ⟨p, -, -, -, he⟩ | ⟨p, i, s1, -, -, -, hc, he⟩ <;> rw [he]
    · exact h
    · exact runInner_inv h r p c
    · have := chargeFee_inv h env p i
      rw [hc] at this
      exact runInner_inv this r p c

theorem run_snoc (rt : Runtime R) (w : World R) (steps : List (Step R)) (x : Step R) :
    run rt w (steps ++ [x]) = step rt (run rt w steps) x := by simp [run, List.foldl_append]

theorem run_inv (rt : Runtime R) (w : World R) (steps : List (Step R)) : Inv rt (run rt w steps) := by
  induction steps using List.reverseRecOn with
  | nil => exact ⟨by simp [run, init], by simp [run, init], by simp [run, init]⟩
  | append_singleton l x ih => rw [run_snoc]; exact step_inv ih x

/-- C62, consecutive: in every history the nonces of an account's payments are 0, 1, 2, ... in order (modulo 2^64). -/
theorem C62_payment_nonces_consecutive (rt : Runtime R) (w : World R) (steps : List (Step R)) (a : Acct) :
    ((run rt w steps).log.filter (paidBy a)).map paidNonce =
      (List.range ((run rt w steps).log.filter (paidBy a)).length).map (· % 2 ^ 64) := by
  rw [(run_inv rt w steps).nonces a, List.countP_eq_length_filter]

/-- C62, authorised: every payment was authorised by a signature of the payer over the proxied call's proof, the recipient,
the amount, the token and the nonce. -/
theorem C62_payments_are_authorised (rt : Runtime R) (w : World R) (steps : List (Step R)) (p : Proof) (i : PaymentInfo) (n : Nat)
    (h : Obs.paid p i n ∈ (run rt w steps).log) :
    ∃ m : U64, m.val = n ∧
      verifySignature rt.crypto { signer := i.payer, relayer := i.payer, signature := i.signature } (paymentPayload p i m) = true :=
  (run_inv rt w steps).signed p i n h

theorem filter_split {α : Type} (q : α → Bool) (l a b c : List α) (x y : α) (h : l = a ++ x :: b ++ y :: c)
    (hx : q x = true) (hy : q y = true) :
    l.filter q = a.filter q ++ x :: b.filter q ++ y :: c.filter q := by
  subst h; simp [hx, hy]

/-- C62, at most once: two payments of the same payer in one history never rest on the same authorisation, as long as that
account has made at most 2^64 payments: the bytes that had to be signed differ. -/
theorem C62_authorisation_used_once (rt : Runtime R) (w : World R) (steps : List (Step R)) (l1 l2 l3 : List Obs)
    (p p' : Proof) (i i' : PaymentInfo) (n n' : U64)
    (h : (run rt w steps).log = l1 ++ .paid p i n.val :: l2 ++ .paid p' i' n'.val :: l3) (hp : i.payer = i'.payer)
    (hlen : ((run rt w steps).log.filter (paidBy i.payer)).length ≤ 2 ^ 64) :
    paymentPayload p i n ≠ paymentPayload p' i' n' := by
  intro he
  have hn := (C72_payment_payload_injective p p' i i' n n' he).2.2.2.2
  subst hn
  have hc := C62_payment_nonces_consecutive rt w steps i.payer
  have hf := filter_split (paidBy i.payer) _ l1 l2 l3 _ _ h (by simp [paidBy]) (by simp [paidBy, hp])
  rw [hf] at hc hlen
  have hmod : ∀ k ∈ List.range (l1.filter (paidBy i.payer) ++ Obs.paid p i n.val :: l2.filter (paidBy i.payer) ++
      Obs.paid p' i' n.val :: l3.filter (paidBy i.payer)).length, k % 2 ^ 64 = k := by
    intro k hk
    rw [List.mem_range] at hk
    exact Nat.mod_eq_of_lt (lt_of_lt_of_le hk hlen)
  rw [List.map_congr_left (g := id) (by simpa using hmod), List.map_id] at hc
  have hnd : ((l1.filter (paidBy i.payer) ++ Obs.paid p i n.val :: l2.filter (paidBy i.payer) ++
      Obs.paid p' i' n.val :: l3.filter (paidBy i.payer)).map paidNonce).Nodup := by
    rw [hc]; exact List.nodup_range
  simp only [List.map_append, List.map_cons, paidNonce, List.append_assoc, List.cons_append] at hnd
  have h2 := (List.nodup_append.mp hnd).2.1
  exact (List.nodup_cons.mp h2).1 (by simp)

/-- C62, exact amount: a paid fee moves exactly the authorised amount of the authorised token from the payer to the recipient
(nothing if they are the same account) and changes no other balance. -/
theorem C62_fee_exact (rt : Runtime R) (env : TokenManager.Env) (p : Proof) (i : PaymentInfo) (s : State R)
    (h : (chargeFee rt env p i s).2 = none) :
    let a := s.world.tm
    let b := (chargeFee rt env p i s).1.world.tm
    (i.token ≠ a.avtContract → b.avt = a.avt ∧ (∀ t, t ≠ i.token → b.bal t = a.bal t) ∧
      ∀ x, b.bal i.token x + (if x = i.payer then i.amount.val else 0) =
        a.bal i.token x + (if x = i.recipient then i.amount.val else 0)) ∧
    (i.token = a.avtContract → b.bal = a.bal ∧
      ∀ x, b.avt x + (if x = i.payer then i.amount.val else 0) = a.avt x + (if x = i.recipient then i.amount.val else 0)) := by
  intro a b
  rcases chargeFee_cases rt env p i s with ⟨e, he⟩ | ⟨tm, -, hs, he⟩
  · rw [he] at h; cases h
  · have hb : b = tm := by show (chargeFee rt env p i s).1.world.tm = tm; rw [he]; rfl
    rw [hb]
    show (i.token ≠ s.world.tm.avtContract → _) ∧ (i.token = s.world.tm.avtContract → _)
    change TokenManager.settleTransfer env a i.token i.payer i.recipient i.amount.val = (tm, none) at hs
    unfold TokenManager.settleTransfer at hs
    constructor
    · intro ht
      rw [if_neg ht] at hs
      by_cases h1 : a.bal i.token i.payer < i.amount.val
      · rw [if_pos h1] at hs; simp at hs
      · rw [if_neg h1] at hs
        by_cases h2 : i.payer ≠ i.recipient ∧ checkedAdd128 (a.bal i.token i.recipient) i.amount.val = none
        · rw [if_pos h2] at hs; simp at hs
        · rw [if_neg h2] at hs
          simp only [Prod.mk.injEq, and_true] at hs
          subst hs
          refine ⟨rfl, fun t htt => by simp [upd, htt], fun x => ?_⟩
          simp only [upd_same]
          by_cases hx : x = i.recipient
          · subst hx
            by_cases hy : i.recipient = i.payer
            · simp [upd, hy]; omega
            · simp [upd, hy]
          · by_cases hy : x = i.payer
            · subst hy; simp [upd, hx]; omega
            · simp [upd, hx, hy]
    · intro ht
      rw [if_pos ht] at hs
      unfold TokenManager.nativeTransfer at hs
      by_cases h0 : i.amount.val = 0 ∨ i.payer = i.recipient
      · rw [if_pos h0] at hs
        simp only [Prod.mk.injEq, and_true] at hs
        subst hs
        refine ⟨rfl, fun x => ?_⟩
        rcases h0 with h0 | h0
        · simp [h0]
        · simp [h0]
      · rw [if_neg h0] at hs
        by_cases h1 : a.avt i.payer < i.amount.val
        · rw [if_pos h1] at hs; simp at hs
        · rw [if_neg h1] at hs
          by_cases h2 : a.avt i.payer - i.amount.val < env.frozen i.payer
          · rw [if_pos h2] at hs; simp at hs
          · rw [if_neg h2] at hs
            by_cases h3 : a.avt i.recipient + i.amount.val ≥ pow128
            · rw [if_pos h3] at hs; simp at hs
            · rw [if_neg h3] at hs
              simp only [Prod.mk.injEq, and_true] at hs
              subst hs
              have hne : i.recipient ≠ i.payer := fun hh => h0 (Or.inr hh.symm)
              refine ⟨rfl, fun x => ?_⟩
              by_cases hx : x = i.recipient
              · subst hx; simp [upd, hne]
              · by_cases hy : x = i.payer
                · subst hy; simp [upd, hx]; omega
                · simp [upd, hx, hy]

/-- C62, independent of the inner call: when the call is accepted with a payment, the fee has been charged; if the inner call
is not authorised or fails, the fee payment is the only change to the world. -/
theorem C62_fee_kept_when_inner_fails (rt : Runtime R) (env : TokenManager.Env) (relayer : Acct) (c : Call) (i : PaymentInfo)
    (s : State R) (h : (proxy rt env relayer c (some i) s).2 = none) :
    ∃ p s1, c.proof? = some p ∧ chargeFee rt env p i s = (s1, none) ∧
      Obs.paid p i (s.payNonce i.payer).val ∈ (proxy rt env relayer c (some i) s).1.log ∧
      ((¬ Authorised rt s1.world p.signer relayer c ∨ rt.dispatch p.signer c s1.world = none) →
        (proxy rt env relayer c (some i) s).1.world = s1.world ∧
        (proxy rt env relayer c (some i) s).1.payNonce = s1.payNonce) := by
  rcases proxy_cases rt env relayer c (some i) s with ⟨e, he⟩ | ⟨p, -, -, hn, -⟩ | ⟨p, j, s1, hp, hr, hj, hc, he⟩
  · rw [he] at h; cases h
  · cases hn
  · cases hj
    refine ⟨p, s1, hp, hc, ?_, ?_⟩
    · rw [he]
      have hm : Obs.paid p i (s.payNonce i.payer).val ∈ s1.log := by
        rcases chargeFee_cases rt env p i s with ⟨e, h2⟩ | ⟨tm, -, -, h2⟩
        · rw [h2] at hc; simp at hc
        · rw [h2] at hc; simp only [Prod.mk.injEq, and_true] at hc; subst hc; simp [paidState]
      rcases runInner_cases rt relayer p c s1 with ⟨-, w, -, hi⟩ | ⟨-, -, hi⟩ | ⟨-, hi⟩ <;> rw [hi] <;> simp [hm]
    · intro hbad
      rw [he]
      rcases runInner_cases rt relayer p c s1 with ⟨hv, w, hd, hi⟩ | ⟨-, -, hi⟩ | ⟨-, hi⟩
      · rcases hbad with hbad | hbad
        · exact absurd (hr ▸ valid_authorised rt _ p _ hp hv) hbad
        · rw [hd] at hbad; cases hbad
      · rw [hi]; exact ⟨rfl, rfl⟩
      · rw [hi]; exact ⟨rfl, rfl⟩

/-- C62: a fee that cannot be charged (bad authorisation or insufficient funds) aborts everything, the inner call included. -/
theorem C62_failed_fee_aborts (rt : Runtime R) (env : TokenManager.Env) (relayer : Acct) (c : Call) (i : PaymentInfo)
    (s : State R) (p : Proof) (hp : c.proof? = some p) (h : (chargeFee rt env p i s).2 ≠ none) :
    (proxy rt env relayer c (some i) s).1 = s ∧ (proxy rt env relayer c (some i) s).2 ≠ none := by
  rcases proxy_cases rt env relayer c (some i) s with ⟨e, he⟩ | ⟨q, -, -, hn, -⟩ | ⟨q, j, s1, hq, -, hj, hc, -⟩
  · rw [he]; simp
  · cases hn
  · cases hj; rw [hq] at hp; cases hp; rw [hc] at h; exact absurd rfl h

/-! ## Non-vacuity -/

/-- A crypto that accepts the signature made of the bytes 7 by anyone on anything. -/
def exCrypto : Crypto := { verifySr := fun _ raw _ => raw == Vector.replicate 64 7, recoverEcdsa := fun _ _ => none }

def exRt : Runtime Nat :=
  { crypto := exCrypto, nonces := fun _ => exNonces,
    dispatch := fun _ c w => match c with | .bondExtra .. => none | _ => some { w with rest := w.rest + 1 } }

def exTm : TokenManager.State :=
  { bal := fun _ _ => 50, avt := fun _ => 0, nonce := fun _ => 0, lowerNonce := 0, scheduled := fun _ => none, pending := fun _ => none,
    ready := fun _ => none, failed := fun _ => none, lowersDisabled := false, avtContract := Vector.replicate 20 9, lowerPeriod := 1 }

def exEnv : TokenManager.Env :=
  { crypto := exCrypto, frozen := fun _ => 0, scheduleOk := true, bridgeOk := true, eventKnown := true, now := 0,
    treasury := exAcct 9, growthPct := 0, growthHandler := fun _ _ a => (a, true) }

def exPay (amount : U128) : PaymentInfo :=
  { payer := exAcct 1, recipient := exAcct 2, amount := amount, signature := .sr25519 (Vector.replicate 64 7), token := Vector.replicate 20 8 }

/-- Two paid calls, the second of which fails inside, then one whose fee cannot be paid, then an unsupported one. -/
def exSteps : List (Step Nat) :=
  [.proxy exEnv (exAcct 2) (.signedTransfer exProof (exAcct 1) (exAcct 3) (Vector.replicate 20 8) 5) (some (exPay 20)),
   .proxy exEnv (exAcct 2) (.bondExtra exProof 5) (some (exPay 20)),
   .proxy exEnv (exAcct 2) (.bondExtra exProof 5) (some (exPay 20)),
   .proxy exEnv (exAcct 2) (.other 5) none]

example : (run exRt ⟨exTm, 0⟩ exSteps).log.map (fun o => (isDispatch o, paidBy (exAcct 1) o, paidNonce o)) =
      [(false, true, 0), (true, false, 0), (false, true, 1), (true, false, 0)] ∧
    (run exRt ⟨exTm, 0⟩ exSteps).world.rest = 1 ∧
    (run exRt ⟨exTm, 0⟩ exSteps).world.tm.bal (Vector.replicate 20 8) (exAcct 1) = 10 ∧
    (run exRt ⟨exTm, 0⟩ exSteps).world.tm.bal (Vector.replicate 20 8) (exAcct 2) = 90 := by decide +kernel

end Verif.Proxy
