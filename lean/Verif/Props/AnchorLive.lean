import Verif.Props.Anchor
import Verif.Props.TokenLive

/-!
# Valid requests of chain handlers are honoured: C144

C63 and C64 say what cannot happen; this file says which requests are carried out, in every state that can be reached.
-/

namespace Verif.Anchor
open Verif.ProxyCalls

/-- The bytes signed to register `handler` for a chain called `name` through `relayer`. -/
def registerBytes (relayer handler : Acct) (name : List UInt8) : List UInt8 :=
  scaleBytes (ascii "register_chain_handler") ++ (relayer.toList ++ (handler.toList ++ scaleBytes name))

/-- The bytes signed to hand chain `c` from `old` to `new` at nonce `n` through `relayer`. -/
def updateBytes (relayer old new : Acct) (c : U32) (n : U64) : List UInt8 :=
  scaleBytes (ascii "update_chain_handler") ++
    (relayer.toList ++ (old.toList ++ (new.toList ++ (leBytes 4 c.val ++ leBytes 8 n.val))))

/-- The bytes signed to submit a checkpoint for chain `c` at nonce `n` through `relayer`. -/
def checkpointBytes (relayer handler : Acct) (hash : Hash) (c : U32) (n : U64) (origin : U64) : List UInt8 :=
  scaleBytes (ascii "submit_checkpoint") ++
    (relayer.toList ++ (handler.toList ++ (hash.toList ++ (leBytes 4 c.val ++ (leBytes 8 n.val ++ leBytes 8 origin.val)))))

/-- Specification: `s'` is `s` with `handler` in charge of a new chain under the next id. -/
def Registered (s s' : State) (handler : Acct) (name : List UInt8) : Prop :=
  s'.handlers handler = some s.nextChain ∧ (∀ a, a ≠ handler → s'.handlers a = s.handlers a) ∧
    s'.chainData s.nextChain = some name ∧ s'.nextChain.val = s.nextChain.val + 1 ∧ s'.checkpoints = s.checkpoints ∧ s'.tm = s.tm

/-- Specification: `s'` is `s` with chain `c` handed from `old` to `new`. -/
def HandedOver (s s' : State) (old new : Acct) (c : U32) : Prop :=
  s'.handlers new = some c ∧ s'.handlers old = none ∧ (∀ a, a ≠ old → a ≠ new → s'.handlers a = s.handlers a) ∧
    s'.nextChain = s.nextChain ∧ s'.checkpoints = s.checkpoints ∧ s'.tm = s.tm

/-- Specification: `s'` is `s` with the checkpoint stored under the next id of chain `c` and its fee paid to the treasury. -/
def Checkpointed (env : TokenManager.Env) (s s' : State) (handler : Acct) (c : U32) (hash : Hash) (origin : U64) : Prop :=
  s'.checkpoints c (s.nextCheckpoint c) = some (hash, origin) ∧ (s'.nextCheckpoint c).val = (s.nextCheckpoint c).val + 1 ∧
    s'.handlers = s.handlers ∧ TokenManager.Paid s.tm s'.tm s.tm.avtContract handler env.treasury (s.fee c)

theorem checkedSucc_iff {k : Nat} (x : Fin (2 ^ k)) : (∃ y, checkedSucc x = some y) ↔ x.val + 1 < 2 ^ k := by
  unfold checkedSucc
  by_cases h : x.val + 1 < 2 ^ k
  · rw [dif_pos h]; simp [h]
  · rw [dif_neg h]; simp; omega

theorem doRegister_iff (handler : Acct) (name : List UInt8) (auth : Option Call) (s : State) :
    (∃ s', doRegister handler name auth s = .ok s') ↔ s.handlers handler = none ∧ name ≠ [] ∧ s.nextChain.val + 1 < 2 ^ 32 := by
  rw [← checkedSucc_iff]
  unfold doRegister
  cases hh : s.handlers handler with
  | some c => simp
  | none =>
    rw [if_neg (by simp)]
    by_cases hn : name = []
    · rw [if_pos hn]; simp [hn]
    · rw [if_neg hn]
      cases hc : checkedSucc s.nextChain with
      | none => simp
      | some n => simp [hn]

theorem doRegister_effect {handler : Acct} {name : List UInt8} {auth : Option Call} {s s' : State}
    (h : doRegister handler name auth s = .ok s') : Registered s s' handler name := by
  obtain ⟨n, -, -, h3, rfl⟩ := doRegister_ok h
  exact ⟨upd_same _ _ _, fun a ha => upd_ne _ _ ha, upd_same _ _ _, h3, rfl, rfl⟩

theorem registerBytes_eq (s : State) (p : Proof) (a : Acct) (n : SVec UInt8) :
    payload (view s) (.registerChainHandler p a n) = some (registerBytes p.relayer a n.val) := by
  simp [payload, fields, registerBytes, context, encFields, Field.enc]

theorem valid_iff {cr : Crypto} {ns : Nonces} {c : Call} {p : Proof} {m : List UInt8} (hp : c.proof? = some p) (hm : payload ns c = some m) :
    signatureIsValid cr ns c = verifySignature cr p m := by
  unfold signatureIsValid
  rw [hp, hm]

/-- **C144.** An account that handles no chain can register one with a name, while ids last; the signed request moreover needs a valid proof
over exactly these parameters, and nothing else. -/
theorem C144_registration_accepted_iff (s : State) (cr : Crypto) (a : Acct) (p : Proof) (handler : Acct) (name : SVec UInt8) :
    ((∃ s', exec s (.register a name.val) = .ok s') ↔ s.handlers a = none ∧ name.val ≠ [] ∧ s.nextChain.val + 1 < 2 ^ 32) ∧
    ((∃ s', exec s (.signedRegister cr a p handler name) = .ok s') ↔ a = handler ∧
      verifySignature cr p (registerBytes p.relayer handler name.val) = true ∧ s.handlers a = none ∧ name.val ≠ [] ∧ s.nextChain.val + 1 < 2 ^ 32) ∧
    (∀ s', exec s (.register a name.val) = .ok s' ∨ exec s (.signedRegister cr a p handler name) = .ok s' → Registered s s' a name.val) := by
  have e1 : exec s (.register a name.val) = doRegister a name.val none s := rfl
  have e2 : exec s (.signedRegister cr a p handler name) = if a ≠ handler then .error .senderNotValid
      else if verifySignature cr p (registerBytes p.relayer handler name.val) then
        doRegister handler name.val (some (.registerChainHandler p handler name)) s else .error .unauthorizedSigned := by
    show signedRegister cr a p handler name s = _
    unfold signedRegister
    rw [valid_iff rfl (registerBytes_eq s p handler name)]
  rw [e1, e2]
  refine ⟨doRegister_iff a name.val none s, ?_, ?_⟩
  · by_cases ha : a = handler
    · subst ha
      rw [if_neg (by simp)]
      by_cases hv : verifySignature cr p (registerBytes p.relayer a name.val) = true
      · rw [if_pos hv, doRegister_iff]; simp [hv]
      · rw [if_neg hv]; simp [hv]
    · rw [if_pos ha]; simp [ha]
  · rintro s' (h | h)
    · exact doRegister_effect h
    · split at h
      · cases h
      · rename_i ha
        rw [ne_eq, not_not] at ha
        subst ha
        split at h
        · exact doRegister_effect h
        · cases h

theorem doUpdate_iff (old new : Acct) (c : U32) (auth : Option (Call × U64)) {s : State} (hi : HInv s) (ho : s.handlers old = some c) :
    (∃ s', doUpdate old new c auth s = .ok s') ↔ s.handlers new = none := by
  unfold doUpdate
  cases hn : s.handlers new with
  | some d => simp
  | none =>
    rw [if_neg (by simp), ho, if_neg (by simp)]
    have hd := (hi.data c).mp (hi.lt old c ho)
    cases hc : s.chainData c with
    | none => rw [hc] at hd; simp at hd
    | some n => simp

theorem doUpdate_effect {old new : Acct} {c : U32} {auth : Option (Call × U64)} {s s' : State} (ho : s.handlers old = some c)
    (h : doUpdate old new c auth s = .ok s') : HandedOver s s' old new c := by
  obtain ⟨h0, rfl⟩ := doUpdate_ok h
  have hne : new ≠ old := by rintro rfl; rw [h0] at ho; cases ho
  refine ⟨?_, upd_same _ _ _, fun a h1 h2 => ?_, rfl, rfl, rfl⟩
  · show upd (upd s.handlers new (some c)) old none new = _
    rw [upd_ne _ _ hne, upd_same]
  · show upd (upd s.handlers new (some c)) old none a = _
    rw [upd_ne _ _ h1, upd_ne _ _ h2]

/-- **C144.** In every history, the handler of a chain can hand it to any account that handles none; the signed request moreover needs a valid
proof over exactly these parameters and the chain's current nonce, which it uses up. -/
theorem C144_handover_accepted_iff (fee : Nat) (tm : TokenManager.State) (steps : List Step) (cr : Crypto) (a : Acct) (p : Proof)
    (old new : Acct) :
    let s := run fee tm steps
    ((∃ s', exec s (.update a new) = .ok s') ↔ (∃ c, s.handlers a = some c) ∧ s.handlers new = none) ∧
    ((∃ s', exec s (.signedUpdate cr a p old new) = .ok s') ↔ a = old ∧ s.handlers new = none ∧
      ∃ c, s.handlers a = some c ∧ verifySignature cr p (updateBytes p.relayer old new c (s.nonces c)) = true) ∧
    (∀ s' c, s.handlers a = some c → exec s (.update a new) = .ok s' → HandedOver s s' a new c) ∧
    (∀ s' c, s.handlers a = some c → exec s (.signedUpdate cr a p old new) = .ok s' →
      HandedOver s s' a new c ∧ s'.nonces c = s.nonces c + 1) := by
  intro s
  have hi : HInv s := run_hinv fee tm steps
  clear_value s
  have e1 : ∀ c, s.handlers a = some c → exec s (.update a new) = doUpdate a new c none s := by
    intro c hc
    show updateHandler a new s = _
    unfold updateHandler
    cases hn : s.handlers new with
    | some d => unfold doUpdate; rw [hn]; rfl
    | none => rw [if_neg (by simp), hc]
  have e1' : s.handlers a = none → ¬ ∃ s', exec s (.update a new) = .ok s' := by
    rintro hc ⟨s', h⟩
    have h : updateHandler a new s = .ok s' := h
    unfold updateHandler at h
    split at h
    · cases h
    · rw [hc] at h; cases h
  have hb : ∀ c, s.handlers old = some c → payload (view s) (.updateChainHandler p old new) = some (updateBytes p.relayer old new c (s.nonces c)) := by
    intro c hc
    simp [payload, fields, view, hc, updateBytes, context, encFields, Field.enc]
  have e2 : ∀ c, a = old → s.handlers a = some c → exec s (.signedUpdate cr a p old new) =
      if verifySignature cr p (updateBytes p.relayer old new c (s.nonces c)) then
        match doUpdate old new c (some (.updateChainHandler p old new, s.nonces c)) s with
        | .error e => .error e
        | .ok s1 => .ok { s1 with nonces := upd s1.nonces c (s1.nonces c + 1) }
      else .error .unauthorizedSigned := by
    intro c ha hc
    subst ha
    show signedUpdate cr a p a new s = _
    unfold signedUpdate
    rw [if_neg (by simp), hc]
    dsimp only
    rw [valid_iff rfl (hb c hc)]
    rfl
  refine ⟨⟨fun h => ?_, fun ⟨⟨c, hc⟩, hn⟩ => ?_⟩, ⟨fun h => ?_, fun ⟨ha, hn, c, hc, hv⟩ => ?_⟩, fun s' c hc h => ?_, fun s' c hc h => ?_⟩
  · cases hc : s.handlers a with
    | none => exact absurd h (e1' hc)
    | some c =>
      rw [e1 c hc] at h
      exact ⟨⟨c, rfl⟩, (doUpdate_iff a new c none hi hc).mp h⟩
  · rw [e1 c hc]
    exact (doUpdate_iff a new c none hi hc).mpr hn
  · obtain ⟨s', h⟩ := h
    have h0 : signedUpdate cr a p old new s = .ok s' := h
    unfold signedUpdate at h0
    by_cases ha : a = old
    · cases hc : s.handlers old with
      | none => rw [if_neg (by simpa using ha), hc] at h0; cases h0
      | some c =>
        rw [e2 c ha (ha ▸ hc)] at h
        by_cases hv : verifySignature cr p (updateBytes p.relayer old new c (s.nonces c)) = true
        · rw [if_pos hv] at h
          cases hd : doUpdate old new c (some (.updateChainHandler p old new, s.nonces c)) s with
          | error e => rw [hd] at h; cases h
          | ok s1 => exact ⟨ha, (doUpdate_iff old new c _ hi hc).mp ⟨s1, hd⟩, c, ha ▸ hc, hv⟩
        · rw [if_neg hv] at h; cases h
    · rw [if_pos ha] at h0; cases h0
  · rw [e2 c ha hc, if_pos hv]
    obtain ⟨s1, h1⟩ := (doUpdate_iff old new c (some (.updateChainHandler p old new, s.nonces c)) hi (ha ▸ hc)).mpr hn
    rw [h1]
    exact ⟨_, rfl⟩
  · rw [e1 c hc] at h
    exact doUpdate_effect hc h
  · have ha : a = old := by
      by_contra hne
      have h0 : signedUpdate cr a p old new s = .ok s' := h
      unfold signedUpdate at h0
      rw [if_pos hne] at h0; cases h0
    rw [e2 c ha hc] at h
    by_cases hv : verifySignature cr p (updateBytes p.relayer old new c (s.nonces c)) = true
    · rw [if_pos hv] at h
      cases hd : doUpdate old new c (some (.updateChainHandler p old new, s.nonces c)) s with
      | error e => rw [hd] at h; cases h
      | ok s1 =>
        rw [hd] at h
        injection h with h
        subst h
        have hn : s1.nonces c = s.nonces c := by
          obtain ⟨-, rfl⟩ := doUpdate_ok hd
          show upd s.nonces c (s.nonces c + 0) c = _
          rw [upd_same]; simp
        subst ha
        obtain ⟨g1, g2, g3, g4, g5, g6⟩ := doUpdate_effect hc hd
        exact ⟨⟨g1, g2, g3, g4, g5, g6⟩, by show upd s1.nonces c _ c = _; rw [upd_same, hn]⟩
    · rw [if_neg hv] at h; cases h

theorem doSubmit_iff (env : TokenManager.Env) (handler : Acct) (hash : Hash) (c : U32) (origin : U64) (auth : Option (Call × U64)) (s : State) :
    (∃ s', doSubmit env handler hash c origin auth s = .ok s') ↔ s.originTo c origin = none ∧ (s.nextCheckpoint c).val + 1 < 2 ^ 64 ∧
      TokenManager.Payable env s.tm s.tm.avtContract handler env.treasury (s.fee c) := by
  rw [← TokenManager.settle_iff, ← checkedSucc_iff]
  unfold doSubmit
  cases ho : s.originTo c origin with
  | some k => simp
  | none =>
    rw [if_neg (by simp)]
    cases hc : checkedSucc (s.nextCheckpoint c) with
    | none => simp
    | some n =>
      dsimp only
      cases hs : TokenManager.settleTransfer env s.tm s.tm.avtContract handler env.treasury (s.fee c) with
      | mk tm e => cases e <;> simp

theorem doSubmit_effect {env : TokenManager.Env} {handler : Acct} {hash : Hash} {c : U32} {origin : U64} {auth : Option (Call × U64)}
    {s s' : State} (h : doSubmit env handler hash c origin auth s = .ok s') : Checkpointed env s s' handler c hash origin := by
  obtain ⟨n, tm, -, h2, h3, rfl⟩ := doSubmit_ok h
  refine ⟨?_, ?_, rfl, ?_⟩
  · simp [cpState]
  · simp [cpState, h2]
  · have := TokenManager.settle_paid env s.tm s.tm.avtContract handler env.treasury (s.fee c) (by rw [h3])
    rw [h3] at this
    exact this

/-- **C144.** In every history, a checkpoint of a chain is accepted exactly when the chain's handler submits it, no checkpoint of the chain so
far carries this origin id, and the handler can pay the chain's fee (while ids last); the signed request moreover needs a valid proof over
exactly these parameters and the chain's current nonce, which it uses up. -/
theorem C144_checkpoint_accepted_iff (fee : Nat) (tm : TokenManager.State) (steps : List Step) (cr : Crypto) (env : TokenManager.Env)
    (a : Acct) (p : Proof) (handler : Acct) (hash : Hash) (origin : U64) :
    let s := run fee tm steps
    let ok : U32 → Prop := fun c => s.handlers a = some c ∧ (∀ k h, s.checkpoints c k ≠ some (h, origin)) ∧
      (s.nextCheckpoint c).val + 1 < 2 ^ 64 ∧ TokenManager.Payable env s.tm s.tm.avtContract a env.treasury (s.fee c)
    ((∃ s', exec s (.submit env a hash origin) = .ok s') ↔ ∃ c, ok c) ∧
    ((∃ s', exec s (.signedSubmit cr env a p handler hash origin) = .ok s') ↔ a = handler ∧
      ∃ c, ok c ∧ verifySignature cr p (checkpointBytes p.relayer handler hash c (s.nonces c) origin) = true) ∧
    (∀ s' c, s.handlers a = some c →
      exec s (.submit env a hash origin) = .ok s' ∨ exec s (.signedSubmit cr env a p handler hash origin) = .ok s' →
      Checkpointed env s s' a c hash origin ∧ s'.nonces c = s.nonces c + 1) := by
  intro s ok
  have hci : CInv s := run_cinv fee tm steps
  have hor : ∀ c, s.originTo c origin = none ↔ ∀ k h, s.checkpoints c k ≠ some (h, origin) := by
    intro c
    constructor
    · intro h k x hk
      rw [(hci.origin c origin k).mpr ⟨x, hk⟩] at h; cases h
    · intro h
      cases ho : s.originTo c origin with
      | none => rfl
      | some k =>
        obtain ⟨x, hx⟩ := (hci.origin c origin k).mp ho
        exact absurd hx (h k x)
  have hok : ∀ c, ok c ↔ s.handlers a = some c ∧ ∀ auth, ∃ s', doSubmit env a hash c origin auth s = .ok s' := by
    intro c
    show (_ ∧ _ ∧ _ ∧ _) ↔ _
    constructor
    · rintro ⟨h1, h2, h3, h4⟩
      exact ⟨h1, fun auth => (doSubmit_iff env a hash c origin auth s).mpr ⟨(hor c).mpr h2, h3, h4⟩⟩
    · rintro ⟨h1, h2⟩
      obtain ⟨h3, h4, h5⟩ := (doSubmit_iff env a hash c origin none s).mp (h2 none)
      exact ⟨h1, (hor c).mp h3, h4, h5⟩
  have hok' : ∀ c auth s', s.handlers a = some c → doSubmit env a hash c origin auth s = .ok s' → ok c := by
    intro c auth s' h1 h
    obtain ⟨h3, h4, h5⟩ := (doSubmit_iff env a hash c origin auth s).mp ⟨s', h⟩
    exact ⟨h1, (hor c).mp h3, h4, h5⟩
  have hnon : ∀ c auth s', doSubmit env a hash c origin auth s = .ok s' → s'.nonces c = s.nonces c + 1 := by
    intro c auth s' h
    obtain ⟨n, tm', -, -, -, rfl⟩ := doSubmit_ok h
    exact upd_same _ _ _
  clear_value ok
  clear_value s
  have e1 : ∀ c, s.handlers a = some c → exec s (.submit env a hash origin) = doSubmit env a hash c origin none s := by
    intro c hc
    show submitCheckpoint env a hash origin s = _
    unfold submitCheckpoint
    rw [hc]
  have hb : ∀ c, s.handlers handler = some c →
      payload (view s) (.submitCheckpoint p handler hash origin) = some (checkpointBytes p.relayer handler hash c (s.nonces c) origin) := by
    intro c hc
    simp [payload, fields, view, hc, checkpointBytes, context, encFields, Field.enc]
  have e2 : ∀ c, a = handler → s.handlers a = some c → exec s (.signedSubmit cr env a p handler hash origin) =
      if verifySignature cr p (checkpointBytes p.relayer handler hash c (s.nonces c) origin) then
        doSubmit env handler hash c origin (some (.submitCheckpoint p handler hash origin, s.nonces c)) s
      else .error .unauthorizedSigned := by
    intro c ha hc
    subst ha
    show signedSubmit cr env a p a hash origin s = _
    unfold signedSubmit
    rw [if_neg (by simp), hc]
    dsimp only
    rw [valid_iff rfl (hb c hc)]
  have hsub : ∀ s', exec s (.signedSubmit cr env a p handler hash origin) = .ok s' → a = handler ∧ ∃ c, s.handlers a = some c ∧
      verifySignature cr p (checkpointBytes p.relayer handler hash c (s.nonces c) origin) = true ∧
      doSubmit env a hash c origin (some (.submitCheckpoint p handler hash origin, s.nonces c)) s = .ok s' := by
    intro s' h
    have h0 : signedSubmit cr env a p handler hash origin s = .ok s' := h
    unfold signedSubmit at h0
    by_cases ha : a = handler
    · cases hc : s.handlers handler with
      | none => rw [if_neg (by simpa using ha), hc] at h0; cases h0
      | some c =>
        rw [e2 c ha (ha ▸ hc)] at h
        by_cases hv : verifySignature cr p (checkpointBytes p.relayer handler hash c (s.nonces c) origin) = true
        · rw [if_pos hv] at h
          refine ⟨ha, c, ha ▸ hc, hv, ?_⟩
          rw [ha]; exact h
        · rw [if_neg hv] at h; cases h
    · rw [if_pos ha] at h0; cases h0
  refine ⟨⟨fun ⟨s', h⟩ => ?_, fun ⟨c, hc⟩ => ?_⟩, ⟨fun ⟨s', h⟩ => ?_, fun ⟨ha, c, hc, hv⟩ => ?_⟩, fun s' c hc h => ?_⟩
  · cases hc : s.handlers a with
    | none =>
      have h0 : submitCheckpoint env a hash origin s = .ok s' := h
      unfold submitCheckpoint at h0
      rw [hc] at h0; cases h0
    | some c =>
      rw [e1 c hc] at h
      exact ⟨c, hok' c none s' hc h⟩
  · obtain ⟨h1, h2⟩ := (hok c).mp hc
    rw [e1 c h1]
    exact h2 none
  · obtain ⟨ha, c, hc, hv, hd⟩ := hsub s' h
    exact ⟨ha, c, hok' c _ s' hc hd, hv⟩
  · obtain ⟨h1, h2⟩ := (hok c).mp hc
    rw [e2 c ha h1, if_pos hv, ← ha]
    exact h2 _
  · rcases h with h | h
    · rw [e1 c hc] at h
      exact ⟨doSubmit_effect h, hnon c none s' h⟩
    · obtain ⟨ha, c', hc', hv, hd⟩ := hsub s' h
      rw [hc] at hc'
      injection hc' with e
      subst e
      exact ⟨doSubmit_effect hd, hnon c _ s' hd⟩

/-! ## Examples: each kind of request, accepted in a reached state -/

/-- Whether a request is accepted. -/
def accepted (s : State) (x : Step) : Bool :=
  match exec s x with
  | .ok _ => true
  | .error _ => false

example : let s := run 10 exTm (exSteps.take 2)
    accepted s (.signedUpdate exCrypto (exAcct 1) exProof (exAcct 1) (exAcct 3)) = true ∧
    accepted s (.update (exAcct 1) (exAcct 3)) = true ∧
    accepted s (.submit exEnv (exAcct 1) exHash 6) = true ∧
    accepted s (.signedSubmit exCrypto exEnv (exAcct 1) exProof (exAcct 1) exHash 6) = true ∧
    accepted s (.submit exEnv (exAcct 1) exHash 5) = false ∧
    accepted s (.register (exAcct 5) exName.val) = true ∧
    accepted s (.signedRegister exCrypto (exAcct 5) exProof (exAcct 5) exName) = true := by decide +kernel

end Verif.Anchor
