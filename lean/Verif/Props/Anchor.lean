import Verif.Lemmas.Anchor
import Verif.Props.ProxyCalls

/-!
# C63, C64: anchored chains and their checkpoints
-/

namespace Verif.Anchor
open Verif.ProxyCalls

/-! ## C63 -/

/-- C63, handlers: in every history each registered chain has exactly one handler (so no account loses or shares a chain),
and only registered chains have one. An account handles at most one chain because `handlers` is a function. -/
theorem C63_one_handler_per_chain (fee : Nat) (tm : TokenManager.State) (steps : List Step) (c : U32) :
    (c.val < (run fee tm steps).nextChain.val ↔ ∃ a, (run fee tm steps).handlers a = some c) ∧
    ∀ a b, (run fee tm steps).handlers a = some c → (run fee tm steps).handlers b = some c → a = b := by
  have h := run_hinv fee tm steps
  exact ⟨⟨h.total c, fun ⟨a, ha⟩ => h.lt a c ha⟩, fun a b => h.inj a b c⟩

/-- A registration on the log of the given chain. -/
def isRegistration (c : U32) : Obs → Bool
  | .registered _ d _ _ => d == c
  | _ => false

/-- C63: chain ids are handed out in order, each to one registration. -/
theorem C63_chain_ids_consecutive (fee : Nat) (tm : TokenManager.State) (steps : List Step) (c : U32) :
    (run fee tm steps).log.countP (isRegistration c) = if c.val < (run fee tm steps).nextChain.val then 1 else 0 := by
  refine run_invariant (P := fun s => ∀ c, s.log.countP (isRegistration c) = if c.val < s.nextChain.val then 1 else 0)
    fee tm (by simp [init]) ?_ steps c
  intro s x s' h v c
  cases v with
  | same => exact h c
  | elsewhere f => exact h c
  | feeSet d f => simp [List.countP_append, isRegistration, h c]
  | checkpoint => simp [cpState, List.countP_append, isRegistration, h c]
  | updated => simp [updState, List.countP_append, isRegistration, h c]
  | registered handler name auth n h0 hname hn hs =>
    simp only [regState, List.countP_append, h c, List.countP_cons, List.countP_nil, isRegistration, beq_iff_eq]
    by_cases hc : s.nextChain = c
    · subst hc; simp; omega
    · have : c.val ≠ s.nextChain.val := fun e => hc (Fin.ext e.symm)
      rw [if_neg hc]
      by_cases h1 : c.val < s.nextChain.val
      · have h2 : c.val < n.val := by omega
        simp [h1, h2]
      · have h2 : ¬ c.val < n.val := by omega
        simp [h1, h2]

/-- C63, consecutive checkpoints: a chain's stored checkpoints are exactly those with ids below its counter. -/
theorem C63_checkpoint_ids_consecutive (fee : Nat) (tm : TokenManager.State) (steps : List Step) (c : U32) (k : U64) :
    ((run fee tm steps).checkpoints c k).isSome ↔ k.val < ((run fee tm steps).nextCheckpoint c).val :=
  (run_cinv fee tm steps).ids c k

/-- The checkpoint data an observation announces. -/
def announces (c : U32) (k : U64) : Obs → Option (Hash × U64)
  | .checkpoint _ d i h o _ _ => if d = c ∧ i = k then some (h, o) else none
  | _ => none

/-- C63, permanent: a checkpoint once stored is never changed or removed, whatever happens later. -/
theorem C63_checkpoints_permanent (fee : Nat) (tm : TokenManager.State) (before after : List Step) (c : U32) (k : U64)
    (d : Hash × U64) (h : (run fee tm before).checkpoints c k = some d) :
    (run fee tm (before ++ after)).checkpoints c k = some d := by
  rw [run_append]
  exact foldl_stable after _ (run_cinv fee tm before) h

/-- C63: what is stored is what was announced: an announced checkpoint is stored with its hash and origin id. -/
theorem C63_announced_is_stored (fee : Nat) (tm : TokenManager.State) (steps : List Step) (c : U32) (k : U64) (d : Hash × U64)
    (o : Obs) (ho : o ∈ (run fee tm steps).log) (hd : announces c k o = some d) :
    (run fee tm steps).checkpoints c k = some d := by
  have : CInv (run fee tm steps) ∧ ∀ o ∈ (run fee tm steps).log, ∀ c k d, announces c k o = some d →
      (run fee tm steps).checkpoints c k = some d := by
    refine run_invariant (P := fun s => CInv s ∧ ∀ o ∈ s.log, ∀ c k d, announces c k o = some d → s.checkpoints c k = some d)
      fee tm ⟨⟨by simp [init], by simp [init]⟩, by simp [init]⟩ ?_ steps
    rintro s x s' ⟨hc, h⟩ v
    refine ⟨hc.view v, ?_⟩
    intro o ho c k d hd
    have old : o ∈ s.log → s'.checkpoints c k = some d := fun hm => checkpoint_stable hc v (h o hm c k d hd)
    cases v with
    | same => exact old ho
    | elsewhere f => exact old ho
    | feeSet e f =>
      rcases List.mem_append.mp ho with ho | ho
      · exact old ho
      · simp only [List.mem_cons, List.not_mem_nil, or_false] at ho; subst ho; simp [announces] at hd
    | registered =>
      rcases List.mem_append.mp ho with ho | ho
      · exact old ho
      · simp only [List.mem_cons, List.not_mem_nil, or_false] at ho; subst ho; simp [announces] at hd
    | updated =>
      rcases List.mem_append.mp ho with ho | ho
      · exact old ho
      · simp only [List.mem_cons, List.not_mem_nil, or_false] at ho; subst ho; simp [announces] at hd
    | checkpoint env handler hash chain origin auth n tm h0 h1 hn ht hs =>
      rcases List.mem_append.mp ho with ho | ho
      · exact old ho
      · simp only [List.mem_cons, List.not_mem_nil, or_false] at ho; subst ho
        simp only [announces] at hd
        split at hd
        · rename_i hh
          obtain ⟨rfl, rfl⟩ := hh
          simp only [Option.some.injEq] at hd; subst hd
          simp [cpState, upd]
        · cases hd
  exact this.2 o ho c k d hd

/-- C63, origin ids: within a chain no two checkpoints share an origin id, and the origin index finds exactly the checkpoint. -/
theorem C63_origin_used_once (fee : Nat) (tm : TokenManager.State) (steps : List Step) (c : U32) (k k' : U64) (h h' : Hash) (o : U64)
    (h1 : (run fee tm steps).checkpoints c k = some (h, o)) (h2 : (run fee tm steps).checkpoints c k' = some (h', o)) :
    k = k' ∧ (run fee tm steps).originTo c o = some k := by
  have hi := run_cinv fee tm steps
  have e1 := (hi.origin c o k).mpr ⟨h, h1⟩
  have e2 := (hi.origin c o k').mpr ⟨h', h2⟩
  rw [e1] at e2
  exact ⟨Option.some.inj e2, e1⟩

/-- C63: only the handler of a chain adds checkpoints to it, and pays the chain's fee to the treasury for each: the native
balance of the handler falls, and that of the treasury rises, by exactly the fee. -/
theorem C63_checkpoint_by_handler_for_fee (s : State) (x : Step) (c : U32) (k : U64) (d : Hash × U64)
    (h0 : s.checkpoints c k = none) (h1 : (step s x).checkpoints c k = some d) :
    ∃ handler env, (x = .submit env handler d.1 d.2 ∨ ∃ cr p, x = .signedSubmit cr env handler p handler d.1 d.2) ∧
      s.handlers handler = some c ∧
      ∀ a, (step s x).tm.avt a + (if a = handler then s.fee c else 0) = s.tm.avt a + (if a = env.treasury then s.fee c else 0) := by
  have v := step_view s x
  generalize step s x = s' at v h1
  cases v with
  | same => rw [h0] at h1; cases h1
  | elsewhere f => rw [h0] at h1; cases h1
  | feeSet e f => rw [h0] at h1; cases h1
  | registered => simp only [regState] at h1; rw [h0] at h1; cases h1
  | updated => simp only [updState] at h1; rw [h0] at h1; cases h1
  | checkpoint env handler hash chain origin auth n tm g0 g1 hn ht hs =>
    have hcc : c = chain := by
      by_contra hne
      simp only [cpState] at h1
      rw [upd_ne _ _ hne, h0] at h1; cases h1
    subst hcc
    have hkk : k = s.nextCheckpoint c := by
      by_contra hne
      simp only [cpState, upd_same] at h1
      rw [upd_ne _ _ hne, h0] at h1; cases h1
    subst hkk
    simp only [cpState, upd_same, Option.some.injEq] at h1
    subst h1
    refine ⟨handler, env, ?_, g0, ?_⟩
    · rcases hs with ⟨rfl, -⟩ | ⟨cr, p, rfl, -⟩
      · exact Or.inl rfl
      · exact Or.inr ⟨cr, p, rfl⟩
    · intro a
      simp only [cpState]
      unfold TokenManager.settleTransfer at ht
      rw [if_pos rfl] at ht
      unfold TokenManager.nativeTransfer at ht
      by_cases h0 : s.fee c = 0 ∨ handler = env.treasury
      · rw [if_pos h0] at ht
        simp only [Prod.mk.injEq, and_true] at ht
        subst ht
        rcases h0 with h0 | h0
        · simp [h0]
        · simp [h0]
      · rw [if_neg h0] at ht
        split at ht
        · simp at ht
        · split at ht
          · simp at ht
          · split at ht
            · simp at ht
            · simp only [Prod.mk.injEq, and_true] at ht
              subst ht
              have hne : env.treasury ≠ handler := fun e => h0 (Or.inr e.symm)
              by_cases ha : a = handler
              · subst ha; simp [upd, Ne.symm hne]; omega
              · by_cases hb : a = env.treasury
                · subst hb; simp [upd, hne]
                · simp [upd, ha, hb]

/-! ## C64 -/

/-- The signed call, its chain and its nonce, if the observation is of a signed update or checkpoint. -/
def signedOf : Obs → Option (Call × U32 × U64)
  | .updated _ _ c (some (call, n)) => some (call, c, n)
  | .checkpoint _ c _ _ _ _ (some (call, n)) => some (call, c, n)
  | _ => none

/-- Nonces when the chain in question is `c` and its nonce `n`. -/
def noncesAt (c : U32) (n : U64) : Nonces :=
  { token := fun _ => 0, ethEvents := fun _ => 0, staking := fun _ => 0, batch := fun _ => 0, nft := fun _ => none,
    chainOf := fun _ => some c, chain := fun _ => n }

/-- The bytes a signer signs for a call about chain `c` with nonce `n`. -/
def signedBytes (call : Call) (c : U32) (n : U64) : Option (List UInt8) :=
  payload (noncesAt c n) call

/-- Whether an observation bumps the nonce of chain `c`. -/
def bumps (c : U32) : Obs → Bool
  | .updated _ _ d (some _) => d == c
  | .checkpoint _ d .. => d == c
  | _ => false

/-- Nonces count the bumps; each signed observation carries the count so far; unregistered chains have none. -/
structure NInv (s : State) : Prop where
  hinv : HInv s
  count : ∀ c, (s.nonces c).val = s.log.countP (bumps c) % 2 ^ 64
  fresh : ∀ c : U32, s.nextChain.val ≤ c.val → s.log.countP (bumps c) = 0
  signed : ∀ l1 l2 o call c n, s.log = l1 ++ o :: l2 → signedOf o = some (call, c, n) →
    n.val = l1.countP (bumps c) % 2 ^ 64

theorem signed_snoc {l : List Obs} {o : Obs}
    (h : ∀ l1 l2 o call c n, l = l1 ++ o :: l2 → signedOf o = some (call, c, n) → n.val = l1.countP (bumps c) % 2 ^ 64)
    (ho : ∀ call c n, signedOf o = some (call, c, n) → n.val = l.countP (bumps c) % 2 ^ 64) :
    ∀ l1 l2 o' call c n, l ++ [o] = l1 ++ o' :: l2 → signedOf o' = some (call, c, n) → n.val = l1.countP (bumps c) % 2 ^ 64 := by
  intro l1 l2 o' call c n he hs
  rcases List.eq_nil_or_concat l2 with rfl | ⟨l2', y, rfl⟩
  · obtain ⟨rfl, h2⟩ := List.append_inj' he rfl
    simp only [List.cons.injEq, and_true] at h2
    subst h2
    exact ho call c n hs
  · have : l ++ [o] = (l1 ++ o' :: l2') ++ [y] := by simpa using he
    obtain ⟨h1, _⟩ := List.append_inj' this rfl
    exact h l1 l2' o' call c n h1 hs

theorem NInv.view {s s' : State} {x : Step} (h : NInv s) (v : View s x s') : NInv s' := by
  have hh := h.hinv.view v
  cases v with
  | same => exact h
  | elsewhere f => exact ⟨hh, h.count, h.fresh, h.signed⟩
  | feeSet e f =>
    refine ⟨hh, fun c => ?_, fun c hc => ?_, signed_snoc h.signed (by simp [signedOf])⟩
    · simp [List.countP_append, bumps, h.count c]
    · simp [List.countP_append, bumps, h.fresh c hc]
  | registered handler name auth n h0 hname hn hs =>
    refine ⟨hh, fun c => ?_, fun c hc => ?_, signed_snoc h.signed (by simp [signedOf])⟩
    · simp only [regState, List.countP_append, List.countP_cons, List.countP_nil, bumps]
      by_cases hc : c = s.nextChain
      · subst hc; simp [h.fresh s.nextChain (Nat.le_refl _)]
      · rw [upd_ne _ _ hc]; simp [h.count c]
    · simp only [regState] at hc ⊢
      simp [List.countP_append, bumps, h.fresh c (by omega)]
  | updated old new chain auth bump h0 h1 hs =>
    have hlt := h.hinv.lt old chain h1
    refine ⟨hh, fun c => ?_, fun c hc => ?_, signed_snoc h.signed ?_⟩
    · simp only [updState]
      by_cases hc : c = chain
      · subst hc
        rcases hs with ⟨-, rfl, rfl⟩ | ⟨cr, p, -, rfl, rfl, -⟩
        · simp [List.countP_append, bumps, h.count c]
        · simp [List.countP_append, bumps, Fin.val_add, h.count c]
      · rw [upd_ne _ _ hc]
        cases auth <;> simp [List.countP_append, bumps, h.count c, Ne.symm hc]
    · simp only [updState] at hc ⊢
      have : chain ≠ c := by intro e; subst e; omega
      cases auth <;> simp [List.countP_append, bumps, h.fresh c hc, this]
    · intro call c n hso
      rcases hs with ⟨-, rfl, rfl⟩ | ⟨cr, p, -, rfl, rfl, -⟩
      · simp [signedOf] at hso
      · simp only [signedOf, Option.some.injEq, Prod.mk.injEq] at hso
        obtain ⟨-, rfl, rfl⟩ := hso
        exact h.count _
  | checkpoint env handler hash chain origin auth n tm h0 h1 hn ht hs =>
    have hlt := h.hinv.lt handler chain h0
    refine ⟨hh, fun c => ?_, fun c hc => ?_, signed_snoc h.signed ?_⟩
    · simp only [cpState]
      by_cases hc : c = chain
      · subst hc; simp [List.countP_append, bumps, Fin.val_add, h.count c]
      · rw [upd_ne _ _ hc]; simp [List.countP_append, bumps, h.count c, Ne.symm hc]
    · simp only [cpState] at hc ⊢
      have : chain ≠ c := by intro e; subst e; omega
      simp [List.countP_append, bumps, h.fresh c hc, this]
    · intro call c n hso
      rcases hs with ⟨-, rfl⟩ | ⟨cr, p, -, rfl, -⟩
      · simp [signedOf] at hso
      · simp only [signedOf, Option.some.injEq, Prod.mk.injEq] at hso
        obtain ⟨-, rfl, rfl⟩ := hso
        exact h.count _

theorem run_ninv (f : Nat) (tm : TokenManager.State) (l : List Step) : NInv (run f tm l) := by
  refine run_invariant f tm ⟨init_hinv f tm, by simp [init], by simp [init], ?_⟩ (fun _ _ _ h v => h.view v) l
  intro l1 l2 o call c n h
  simp [init] at h

theorem signed_bumps {o : Obs} {call : Call} {c : U32} {n : U64} (h : signedOf o = some (call, c, n)) : bumps c o = true := by
  cases o with
  | registered => simp [signedOf] at h
  | feeSet => simp [signedOf] at h
  | updated old new chain auth =>
    cases auth with
    | none => simp [signedOf] at h
    | some a =>
      simp only [signedOf, Option.some.injEq, Prod.mk.injEq] at h
      simp [bumps, h.2.1]
  | checkpoint hd chain id hash origin fee auth =>
    cases auth with
    | none => simp [signedOf] at h
    | some a =>
      simp only [signedOf, Option.some.injEq, Prod.mk.injEq] at h
      simp [bumps, h.2.1]

theorem signedOf_kind {f : Nat} {tm : TokenManager.State} {steps : List Step} {o : Obs} {call : Call} {c : U32} {n : U64}
    (ho : o ∈ (run f tm steps).log) (h : signedOf o = some (call, c, n)) : ∀ ns, chainUsed ns call ≠ none ∨ ∃ a, ns.chainOf a = none := by
  have : ∀ o ∈ (run f tm steps).log, ∀ call c n, signedOf o = some (call, c, n) →
      (∃ p a b, call = .updateChainHandler p a b) ∨ (∃ p a h k, call = .submitCheckpoint p a h k) := by
    refine run_invariant (P := fun s => ∀ o ∈ s.log, ∀ call c n, signedOf o = some (call, c, n) →
      (∃ p a b, call = .updateChainHandler p a b) ∨ (∃ p a h k, call = .submitCheckpoint p a h k)) f tm (by simp [init]) ?_ steps
    intro s x s' hi v o ho call c n hs
    cases v with
    | same => exact hi o ho call c n hs
    | elsewhere f => exact hi o ho call c n hs
    | feeSet e f =>
      rcases List.mem_append.mp ho with ho | ho
      · exact hi o ho call c n hs
      · simp only [List.mem_cons, List.not_mem_nil, or_false] at ho; subst ho; simp [signedOf] at hs
    | registered =>
      rcases List.mem_append.mp ho with ho | ho
      · exact hi o ho call c n hs
      · simp only [List.mem_cons, List.not_mem_nil, or_false] at ho; subst ho; simp [signedOf] at hs
    | updated old new chain auth bump h0 h1 hx =>
      rcases List.mem_append.mp ho with ho | ho
      · exact hi o ho call c n hs
      · simp only [List.mem_cons, List.not_mem_nil, or_false] at ho; subst ho
        rcases hx with ⟨-, rfl, -⟩ | ⟨cr, p, -, rfl, -⟩
        · simp [signedOf] at hs
        · simp only [signedOf, Option.some.injEq, Prod.mk.injEq] at hs
          exact Or.inl ⟨_, _, _, hs.1.symm⟩
    | checkpoint env handler hash chain origin auth n' tm h0 h1 hn ht hx =>
      rcases List.mem_append.mp ho with ho | ho
      · exact hi o ho call c n hs
      · simp only [List.mem_cons, List.not_mem_nil, or_false] at ho; subst ho
        rcases hx with ⟨-, rfl⟩ | ⟨cr, p, -, rfl, -⟩
        · simp [signedOf] at hs
        · simp only [signedOf, Option.some.injEq, Prod.mk.injEq] at hs
          exact Or.inr ⟨_, _, _, _, hs.1.symm⟩
  intro ns
  rcases this o ho call c n h with ⟨p, a, b, rfl⟩ | ⟨p, a, k, i, rfl⟩
  · cases hc : ns.chainOf a with
    | none => exact Or.inr ⟨a, hc⟩
    | some c => exact Or.inl (by simp [chainUsed, hc])
  · cases hc : ns.chainOf a with
    | none => exact Or.inr ⟨a, hc⟩
    | some c => exact Or.inl (by simp [chainUsed, hc])

/-- C64 for handler changes and checkpoints: two signed executions in a history, of whatever kind and chain, never rest on the
same signed bytes (as long as fewer than 2^64 extrinsics have been executed). Missing: registrations, see
`C64_registration_can_be_replayed`. -/
theorem C64_signed_call_executed_once_partial (fee : Nat) (tm : TokenManager.State) (steps : List Step) (l1 l2 l3 : List Obs)
    (o o' : Obs) (call call' : Call) (c c' : U32) (n n' : U64)
    (hlog : (run fee tm steps).log = l1 ++ o :: l2 ++ o' :: l3)
    (ho : signedOf o = some (call, c, n)) (ho' : signedOf o' = some (call', c', n'))
    (hlen : (run fee tm steps).log.length < 2 ^ 64) (bytes : List UInt8) (hb : signedBytes call c n = some bytes) :
    signedBytes call' c' n' ≠ some bytes := by
  intro hb'
  have hi := run_ninv fee tm steps
  obtain ⟨-, hn, hc⟩ := C72_payload_determines_call _ _ call call' bytes hb hb'
  have hk := signedOf_kind (f := fee) (tm := tm) (steps := steps) (o := o) (by rw [hlog]; simp) ho
  have hk' := signedOf_kind (f := fee) (tm := tm) (steps := steps) (o := o') (by rw [hlog]; simp) ho'
  -- both calls are about a chain
  have key : ∀ (call : Call) (c : U32) (n : U64), (∀ ns, chainUsed ns call ≠ none ∨ ∃ a, ns.chainOf a = none) →
      chainUsed (noncesAt c n) call = some c ∧
      nonceUsed (noncesAt c n) call = some n := by
    intro call c n hk
    rcases hk (noncesAt c n) with h | ⟨a, ha⟩
    · cases call <;> simp [chainUsed, nonceUsed, noncesAt] at h ⊢
    · simp [noncesAt] at ha
  obtain ⟨k1, k2⟩ := key call c n hk
  obtain ⟨k3, k4⟩ := key call' c' n' hk'
  rw [k1, k3] at hc
  rw [k2, k4] at hn
  have hcc : c = c' := Option.some.inj hc
  have hnn : n = n' := Option.some.inj hn
  subst hcc; subst hnn
  have e1 := hi.signed l1 (l2 ++ o' :: l3) o call c n (by rw [hlog]; simp) ho
  have e2 := hi.signed (l1 ++ o :: l2) l3 o' call' c n (by rw [hlog]) ho'
  have hb1 := signed_bumps ho
  have hle : (l1 ++ o :: l2).countP (bumps c) ≤ (l1 ++ o :: l2).length := List.countP_le_length
  have hlen2 : (l1 ++ o :: l2).length < 2 ^ 64 := by
    have : (run fee tm steps).log.length = (l1 ++ o :: l2).length + (l3.length + 1) := by rw [hlog]; simp; omega
    omega
  rw [List.countP_append, List.countP_cons, if_pos hb1] at e2 hle
  rw [Nat.mod_eq_of_lt (by omega)] at e1
  rw [Nat.mod_eq_of_lt (by omega)] at e2
  omega

/-- C64: what is executed was signed: a signed update or checkpoint is recorded only by the matching extrinsic of the chain's
handler, with a signature of the proof's signer over exactly `signedBytes`. -/
theorem C64_executed_was_signed (s : State) (x : Step) (o : Obs) (call : Call) (c : U32) (n : U64)
    (h1 : (step s x).log = s.log ++ [o]) (ho : signedOf o = some (call, c, n)) :
    ∃ cr p m, call.proof? = some p ∧ signedBytes call c n = some m ∧ verifySignature cr p m = true ∧
      ((∃ a b, x = .signedUpdate cr a p a b ∧ s.handlers a = some c) ∨
       (∃ env a h k, x = .signedSubmit cr env a p a h k ∧ s.handlers a = some c)) := by
  have v := step_view s x
  generalize step s x = s' at v h1
  cases v with
  | same => simp at h1
  | elsewhere f => simp at h1
  | feeSet e f =>
    have := List.append_cancel_left h1; simp only [List.cons.injEq, and_true] at this; subst this; simp [signedOf] at ho
  | registered =>
    have := List.append_cancel_left h1; simp only [List.cons.injEq, and_true] at this; subst this; simp [signedOf] at ho
  | updated old new chain auth bump h0 hh hs =>
    have := List.append_cancel_left h1; simp only [List.cons.injEq, and_true] at this; subst this
    rcases hs with ⟨-, rfl, -⟩ | ⟨cr, p, rfl, rfl, -, hv⟩
    · simp [signedOf] at ho
    · simp only [signedOf, Option.some.injEq, Prod.mk.injEq] at ho
      obtain ⟨rfl, rfl, rfl⟩ := ho
      unfold signatureIsValid at hv
      simp only [Call.proof?] at hv
      have hp : payload (view s) (.updateChainHandler p old new) = signedBytes (.updateChainHandler p old new) chain (s.nonces chain) := by
        simp [payload, signedBytes, fields, view, noncesAt, hh]
      rw [hp] at hv
      cases hm : signedBytes (.updateChainHandler p old new) chain (s.nonces chain) with
      | none => rw [hm] at hv; cases hv
      | some m => rw [hm] at hv; exact ⟨cr, p, m, rfl, rfl, hv, Or.inl ⟨old, new, rfl, hh⟩⟩
  | checkpoint env handler hash chain origin auth n' tm h0 hq hn ht hs =>
    have := List.append_cancel_left h1; simp only [List.cons.injEq, and_true] at this; subst this
    rcases hs with ⟨-, rfl⟩ | ⟨cr, p, rfl, rfl, hv⟩
    · simp [signedOf] at ho
    · simp only [signedOf, Option.some.injEq, Prod.mk.injEq] at ho
      obtain ⟨rfl, rfl, rfl⟩ := ho
      unfold signatureIsValid at hv
      simp only [Call.proof?] at hv
      have hp : payload (view s) (.submitCheckpoint p handler hash origin) =
          signedBytes (.submitCheckpoint p handler hash origin) chain (s.nonces chain) := by
        simp [payload, signedBytes, fields, view, noncesAt, h0]
      rw [hp] at hv
      cases hm : signedBytes (.submitCheckpoint p handler hash origin) chain (s.nonces chain) with
      | none => rw [hm] at hv; cases hv
      | some m => rw [hm] at hv; exact ⟨cr, p, m, rfl, rfl, hv, Or.inr ⟨env, handler, hash, origin, rfl, h0⟩⟩

/-! ## Non-vacuity and the counterexample -/

/-- Accepts the signature made of the bytes 7. -/
def exCrypto : Crypto := { verifySr := fun _ raw _ => raw == Vector.replicate 64 7, recoverEcdsa := fun _ _ => none }

def exTm : TokenManager.State :=
  { bal := fun _ _ => 0, avt := fun _ => 50, nonce := fun _ => 0, lowerNonce := 0, scheduled := fun _ => none, pending := fun _ => none,
    ready := fun _ => none, failed := fun _ => none, lowersDisabled := false, avtContract := Vector.replicate 20 9, lowerPeriod := 1 }

def exEnv : TokenManager.Env :=
  { crypto := exCrypto, frozen := fun _ => 0, scheduleOk := true, bridgeOk := true, eventKnown := true, now := 0,
    treasury := exAcct 9, growthPct := 0, growthHandler := fun _ _ a => (a, true) }

def exName : SVec UInt8 := ⟨ascii "chain", by decide⟩
def exHash : Hash := Vector.replicate 32 4

/-- Register, two checkpoints (one with a reused origin id, refused), handler change, replayed registration. -/
def exSteps : List Step :=
  [.signedRegister exCrypto (exAcct 1) exProof (exAcct 1) exName,
   .signedSubmit exCrypto exEnv (exAcct 1) exProof (exAcct 1) exHash 5,
   .submit exEnv (exAcct 1) exHash 5,
   .submit exEnv (exAcct 1) exHash 6,
   .signedUpdate exCrypto (exAcct 1) exProof (exAcct 1) (exAcct 3),
   .signedRegister exCrypto (exAcct 1) exProof (exAcct 1) exName]

/-- The history above is non-trivial: two checkpoints, four nonce bumps short of one, fees paid, a signed update executed. -/
example : (run 10 exTm exSteps).nextCheckpoint 0 = 2 ∧ (run 10 exTm exSteps).nonces 0 = 3 ∧
    (run 10 exTm exSteps).handlers (exAcct 3) = some 0 ∧ (run 10 exTm exSteps).tm.avt (exAcct 9) = 70 ∧
    ((run 10 exTm exSteps).log.filterMap signedOf).length = 2 ∧
    (signedBytes (.submitCheckpoint exProof (exAcct 1) exHash 5) 0 0).isSome := by decide +kernel

/-- The registration carried by an observation. -/
def registrationOf : Obs → Option (Call × U32)
  | .registered _ c _ (some call) => some (call, c)
  | _ => none

/-- C64 is false for registrations (finding A1): the payload of `signed_register_chain_handler` has no nonce, so after its
handler moved the chain to another account, anyone holding the old proof can register a second chain in its name. Here
one and the same signed call is executed twice, for chains 0 and 1. -/
theorem C64_registration_can_be_replayed :
    (run 10 exTm exSteps).log.filterMap registrationOf =
      [(.registerChainHandler exProof (exAcct 1) exName, 0), (.registerChainHandler exProof (exAcct 1) exName, 1)] := by
  decide +kernel

end Verif.Anchor
