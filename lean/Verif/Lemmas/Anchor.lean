import Verif.Model.Anchor
import Mathlib.Data.List.Induction

namespace Verif.Anchor
open Verif.ProxyCalls

/-- The state after a registration. -/
def regState (handler : Acct) (name : List UInt8) (auth : Option Call) (n : U32) (s : State) : State :=
  { s with
    nextChain := n
    handlers := upd s.handlers handler (some s.nextChain)
    chainData := upd s.chainData s.nextChain (some name)
    nonces := upd s.nonces s.nextChain 0
    log := s.log ++ [.registered handler s.nextChain name auth] }

/-- The state after a handler change; `bump` is added to the nonce. -/
def updState (old new : Acct) (chain : U32) (auth : Option (Call × U64)) (bump : U64) (s : State) : State :=
  { s with
    handlers := upd (upd s.handlers new (some chain)) old none
    nonces := upd s.nonces chain (s.nonces chain + bump)
    log := s.log ++ [.updated old new chain auth] }

/-- The state after a checkpoint. -/
def cpState (handler : Acct) (hash : Hash) (chain : U32) (origin : U64) (auth : Option (Call × U64)) (n : U64)
    (tm : TokenManager.State) (s : State) : State :=
  { s with
    nextCheckpoint := upd s.nextCheckpoint chain n
    checkpoints := upd s.checkpoints chain (upd (s.checkpoints chain) (s.nextCheckpoint chain) (some (hash, origin)))
    originTo := upd s.originTo chain (upd (s.originTo chain) origin (some (s.nextCheckpoint chain)))
    nonces := upd s.nonces chain (s.nonces chain + 1)
    tm := tm
    log := s.log ++ [.checkpoint handler chain (s.nextCheckpoint chain) hash origin (s.fee chain) auth] }

/-- What one step can do. -/
inductive View (s : State) (x : Step) : State → Prop
  | same : View s x s
  | elsewhere (f : TokenManager.State → TokenManager.State) : View s x { s with tm := f s.tm }
  | feeSet (chain : U32) (fee : Nat) : View s x { s with fee := upd s.fee chain fee, log := s.log ++ [.feeSet chain fee] }
  | registered (handler : Acct) (name : List UInt8) (auth : Option Call) (n : U32) (h0 : s.handlers handler = none)
      (hname : name ≠ []) (hn : n.val = s.nextChain.val + 1) (hs : x = .register handler name ∧ auth = none ∨
        ∃ cr p nm, x = .signedRegister cr handler p handler nm ∧ nm.val = name ∧ auth = some (.registerChainHandler p handler nm) ∧
          signatureIsValid cr (view s) (.registerChainHandler p handler nm) = true) :
      View s x (regState handler name auth n s)
  | updated (old new : Acct) (chain : U32) (auth : Option (Call × U64)) (bump : U64) (h0 : s.handlers new = none)
      (h1 : s.handlers old = some chain) (hs : x = .update old new ∧ auth = none ∧ bump = 0 ∨
        ∃ cr p, x = .signedUpdate cr old p old new ∧ auth = some (.updateChainHandler p old new, s.nonces chain) ∧ bump = 1 ∧
          signatureIsValid cr (view s) (.updateChainHandler p old new) = true) :
      View s x (updState old new chain auth bump s)
  | checkpoint (env : TokenManager.Env) (handler : Acct) (hash : Hash) (chain : U32) (origin : U64)
      (auth : Option (Call × U64)) (n : U64) (tm : TokenManager.State)
      (h0 : s.handlers handler = some chain) (h1 : s.originTo chain origin = none) (hn : n.val = (s.nextCheckpoint chain).val + 1)
      (ht : TokenManager.settleTransfer env s.tm s.tm.avtContract handler env.treasury (s.fee chain) = (tm, none))
      (hs : x = .submit env handler hash origin ∧ auth = none ∨
        ∃ cr p, x = .signedSubmit cr env handler p handler hash origin ∧
          auth = some (.submitCheckpoint p handler hash origin, s.nonces chain) ∧
          signatureIsValid cr (view s) (.submitCheckpoint p handler hash origin) = true) :
      View s x (cpState handler hash chain origin auth n tm s)

theorem checkedSucc_some {k : Nat} {x y : Fin (2 ^ k)} (h : checkedSucc x = some y) : y.val = x.val + 1 := by
  unfold checkedSucc at h
  split at h
  · simp only [Option.some.injEq] at h; subst h; rfl
  · cases h

theorem doRegister_ok {handler : Acct} {name : List UInt8} {auth : Option Call} {s s' : State}
    (h : doRegister handler name auth s = .ok s') :
    ∃ n, s.handlers handler = none ∧ name ≠ [] ∧ n.val = s.nextChain.val + 1 ∧ s' = regState handler name auth n s := by
  unfold doRegister at h
  by_cases h1 : (s.handlers handler).isSome = true
  · rw [if_pos h1] at h; cases h
  · rw [if_neg h1] at h
    by_cases h2 : name = []
    · rw [if_pos h2] at h; cases h
    · rw [if_neg h2] at h
      cases hc : checkedSucc s.nextChain with
      | none => rw [hc] at h; cases h
      | some n =>
        rw [hc] at h
        simp only [Except.ok.injEq] at h
        exact ⟨n, by simpa using h1, h2, checkedSucc_some hc, h.symm⟩

theorem doUpdate_ok {old new : Acct} {chain : U32} {auth : Option (Call × U64)} {s s' : State}
    (h : doUpdate old new chain auth s = .ok s') :
    s.handlers new = none ∧ s' = updState old new chain auth 0 s := by
  unfold doUpdate at h
  by_cases h1 : (s.handlers new).isSome = true
  · rw [if_pos h1] at h; cases h
  · rw [if_neg h1] at h
    by_cases h2 : (s.handlers old).isNone = true
    · rw [if_pos h2] at h; cases h
    · rw [if_neg h2] at h
      cases hc : s.chainData chain with
      | none => rw [hc] at h; cases h
      | some d =>
        rw [hc] at h
        simp only [Except.ok.injEq] at h
        refine ⟨by simpa using h1, ?_⟩
        rw [← h]
        have : upd s.nonces chain (s.nonces chain + 0) = s.nonces := by
          funext c; by_cases hcc : c = chain <;> simp [upd, hcc]
        simp only [updState, this]

theorem doSubmit_ok {env : TokenManager.Env} {handler : Acct} {hash : Hash} {chain : U32} {origin : U64}
    {auth : Option (Call × U64)} {s s' : State} (h : doSubmit env handler hash chain origin auth s = .ok s') :
    ∃ n tm, s.originTo chain origin = none ∧ n.val = (s.nextCheckpoint chain).val + 1 ∧
      TokenManager.settleTransfer env s.tm s.tm.avtContract handler env.treasury (s.fee chain) = (tm, none) ∧
      s' = cpState handler hash chain origin auth n tm s := by
  unfold doSubmit at h
  by_cases h1 : (s.originTo chain origin).isSome = true
  · rw [if_pos h1] at h; cases h
  · rw [if_neg h1] at h
    cases hc : checkedSucc (s.nextCheckpoint chain) with
    | none => rw [hc] at h; cases h
    | some n =>
      rw [hc] at h
      dsimp only at h
      rcases ht : TokenManager.settleTransfer env s.tm s.tm.avtContract handler env.treasury (s.fee chain) with ⟨tm, o⟩
      rw [ht] at h
      cases o with
      | some e => cases h
      | none =>
        simp only [Except.ok.injEq] at h
        exact ⟨n, tm, by simpa using h1, checkedSucc_some hc, rfl, h.symm⟩

theorem step_view (s : State) (x : Step) : View s x (step s x) := by
  unfold step
  cases he : exec s x with
  | error e => exact .same
  | ok s' =>
    dsimp only
    cases x with
    | register a n =>
      obtain ⟨k, h1, h2, h3, rfl⟩ := doRegister_ok he
      exact .registered a n none k h1 h2 h3 (Or.inl ⟨rfl, rfl⟩)
    | update a b =>
      simp only [exec, updateHandler] at he
      split at he
      · cases he
      · cases hc : s.handlers a with
        | none => rw [hc] at he; cases he
        | some c =>
          rw [hc] at he
          obtain ⟨h1, rfl⟩ := doUpdate_ok he
          exact .updated a b c none 0 h1 hc (Or.inl ⟨rfl, rfl, rfl⟩)
    | submit env a h o =>
      simp only [exec, submitCheckpoint] at he
      cases hc : s.handlers a with
      | none => rw [hc] at he; cases he
      | some c =>
        rw [hc] at he
        obtain ⟨n, tm, h1, h2, h3, rfl⟩ := doSubmit_ok he
        exact .checkpoint env a h c o none n tm hc h1 h2 h3 (Or.inl ⟨rfl, rfl⟩)
    | signedRegister cr a p h n =>
      simp only [exec, signedRegister] at he
      by_cases ha : a = h
      · subst ha
        rw [if_neg (by simp)] at he
        by_cases hv : signatureIsValid cr (view s) (.registerChainHandler p a n) = true
        · rw [if_pos hv] at he
          obtain ⟨k, h1, h2, h3, rfl⟩ := doRegister_ok he
          exact .registered a n.val _ k h1 h2 h3 (Or.inr ⟨cr, p, n, rfl, rfl, rfl, hv⟩)
        · rw [if_neg hv] at he; cases he
      · rw [if_pos ha] at he; cases he
    | signedUpdate cr a p o n =>
      simp only [exec, signedUpdate] at he
      by_cases ha : a = o
      · subst ha
        rw [if_neg (by simp)] at he
        cases hc : s.handlers a with
        | none => rw [hc] at he; cases he
        | some c =>
          rw [hc] at he
          dsimp only at he
          by_cases hv : signatureIsValid cr (view s) (.updateChainHandler p a n) = true
          · rw [if_pos hv] at he
            cases hd : doUpdate a n c (some (.updateChainHandler p a n, s.nonces c)) s with
            | error e => rw [hd] at he; cases he
            | ok s1 =>
              rw [hd] at he
              obtain ⟨h1, rfl⟩ := doUpdate_ok hd
              simp only [Except.ok.injEq] at he
              have : s' = updState a n c (some (.updateChainHandler p a n, s.nonces c)) 1 s := by
                rw [← he]
                have : upd (upd s.nonces c (s.nonces c + 0)) c ((upd s.nonces c (s.nonces c + 0)) c + 1) =
                    upd s.nonces c (s.nonces c + 1) := by
                  funext d; by_cases hd : d = c <;> simp [upd, hd]
                simp only [updState, this]
              rw [this]
              exact .updated a n c _ 1 h1 hc (Or.inr ⟨cr, p, rfl, rfl, rfl, hv⟩)
          · rw [if_neg hv] at he; cases he
      · rw [if_pos ha] at he; cases he
    | signedSubmit cr env a p h k o =>
      simp only [exec, signedSubmit] at he
      by_cases ha : a = h
      · subst ha
        rw [if_neg (by simp)] at he
        cases hc : s.handlers a with
        | none => rw [hc] at he; cases he
        | some c =>
          rw [hc] at he
          dsimp only at he
          by_cases hv : signatureIsValid cr (view s) (.submitCheckpoint p a k o) = true
          · rw [if_pos hv] at he
            obtain ⟨n, tm, h1, h2, h3, rfl⟩ := doSubmit_ok he
            exact .checkpoint env a k c o _ n tm hc h1 h2 h3 (Or.inr ⟨cr, p, rfl, rfl, hv⟩)
          · rw [if_neg hv] at he; cases he
      · rw [if_pos ha] at he; cases he
    | setFee r c f =>
      simp only [exec, setFee] at he
      by_cases hr : r = true
      · rw [if_pos hr] at he; simp only [Except.ok.injEq] at he; subst he; exact .feeSet c f
      · rw [if_neg hr] at he; cases he
    | elsewhere f =>
      simp only [exec, Except.ok.injEq] at he; subst he; exact .elsewhere f

theorem run_snoc (f : Nat) (tm : TokenManager.State) (l : List Step) (x : Step) :
    run f tm (l ++ [x]) = step (run f tm l) x := by simp [run]

theorem run_append (f : Nat) (tm : TokenManager.State) (l m : List Step) :
    run f tm (l ++ m) = m.foldl step (run f tm l) := by simp [run]

theorem run_invariant {P : State → Prop} (f : Nat) (tm : TokenManager.State) (h0 : P (init f tm))
    (hs : ∀ s x s', P s → View s x s' → P s') (l : List Step) : P (run f tm l) := by
  induction l using List.reverseRecOn with
  | nil => exact h0
  | append_singleton l x ih => rw [run_snoc]; exact hs _ x _ ih (step_view _ x)

/-! ## Handlers -/

/-- The registered chains are those below the next id; each has exactly one handler. -/
structure HInv (s : State) : Prop where
  lt : ∀ a c, s.handlers a = some c → c.val < s.nextChain.val
  inj : ∀ a b c, s.handlers a = some c → s.handlers b = some c → a = b
  total : ∀ c : U32, c.val < s.nextChain.val → ∃ a, s.handlers a = some c
  data : ∀ c : U32, c.val < s.nextChain.val ↔ (s.chainData c).isSome

theorem HInv.congr {s s' : State} (h : HInv s) (h1 : s'.handlers = s.handlers) (h2 : s'.nextChain = s.nextChain)
    (h3 : s'.chainData = s.chainData) : HInv s' := by
  refine ⟨?_, ?_, ?_, ?_⟩
  · rw [h1, h2]; exact h.lt
  · rw [h1]; exact h.inj
  · rw [h1, h2]; exact h.total
  · rw [h2, h3]; exact h.data

theorem HInv.view {s s' : State} {x : Step} (h : HInv s) (v : View s x s') : HInv s' := by
  cases v with
  | same => exact h
  | elsewhere f => exact h.congr rfl rfl rfl
  | feeSet c f => exact h.congr rfl rfl rfl
  | checkpoint => exact h.congr rfl rfl rfl
  | registered handler name auth n h0 hname hn hs =>
    refine ⟨?_, ?_, ?_, ?_⟩
    · intro a c ha
      simp only [regState, upd] at ha ⊢
      split at ha
      · simp only [Option.some.injEq] at ha; subst ha; omega
      · have := h.lt a c ha; omega
    · intro a b c ha hb
      simp only [regState, upd] at ha hb
      split at ha <;> split at hb
      · simp_all
      · simp only [Option.some.injEq] at ha; subst ha; have := h.lt b _ hb; omega
      · simp only [Option.some.injEq] at hb; subst hb; have := h.lt a _ ha; omega
      · exact h.inj a b c ha hb
    · intro c hc
      simp only [regState] at hc ⊢
      by_cases hcn : c = s.nextChain
      · exact ⟨handler, by simp [upd, hcn]⟩
      · obtain ⟨a, ha⟩ := h.total c (by have : c.val ≠ s.nextChain.val := fun e => hcn (Fin.ext e); omega)
        refine ⟨a, ?_⟩
        rw [upd_ne]
        · exact ha
        · intro hh; rw [hh, h0] at ha; cases ha
    · intro c
      simp only [regState]
      by_cases hcn : c = s.nextChain
      · simp [upd, hcn]; omega
      · rw [upd_ne _ _ hcn, ← h.data c]
        have : c.val ≠ s.nextChain.val := fun e => hcn (Fin.ext e)
        omega
  | updated old new chain auth bump h0 h1 hs =>
    refine ⟨?_, ?_, ?_, ?_⟩
    · intro a c ha
      simp only [updState, upd] at ha ⊢
      split at ha
      · cases ha
      · split at ha
        · simp only [Option.some.injEq] at ha; subst ha; exact h.lt old _ h1
        · exact h.lt a c ha
    · intro a b c ha hb
      simp only [updState, upd] at ha hb
      by_cases hao : a = old
      · simp [hao] at ha
      · by_cases hbo : b = old
        · simp [hbo] at hb
        · rw [if_neg hao] at ha; rw [if_neg hbo] at hb
          by_cases han : a = new <;> by_cases hbn : b = new
          · rw [han, hbn]
          · rw [if_pos han] at ha; rw [if_neg hbn] at hb
            simp only [Option.some.injEq] at ha; subst ha
            exact absurd (h.inj b old _ hb h1) hbo
          · rw [if_neg han] at ha; rw [if_pos hbn] at hb
            simp only [Option.some.injEq] at hb; subst hb
            exact absurd (h.inj a old _ ha h1) hao
          · rw [if_neg han] at ha; rw [if_neg hbn] at hb
            exact h.inj a b c ha hb
    · intro c hc
      simp only [updState] at hc ⊢
      have hno : new ≠ old := by intro e; rw [e, h1] at h0; cases h0
      obtain ⟨a, ha⟩ := h.total c hc
      by_cases hao : a = old
      · subst hao
        rw [h1] at ha
        exact ⟨new, by simp [upd, hno, ha]⟩
      · refine ⟨a, ?_⟩
        rw [upd_ne _ _ hao, upd_ne]
        · exact ha
        · intro e; rw [e, h0] at ha; cases ha
    · exact h.data

theorem init_hinv (f : Nat) (tm : TokenManager.State) : HInv (init f tm) :=
  ⟨by simp [init], by simp [init], by simp [init], by simp [init]⟩

theorem run_hinv (f : Nat) (tm : TokenManager.State) (l : List Step) : HInv (run f tm l) :=
  run_invariant f tm (init_hinv f tm) (fun _ _ _ h v => h.view v) l

/-! ## Checkpoints -/

/-- Checkpoints of a chain are those below the next id, and the origin index is exact. -/
structure CInv (s : State) : Prop where
  ids : ∀ c k, (s.checkpoints c k).isSome ↔ k.val < (s.nextCheckpoint c).val
  origin : ∀ c o k, s.originTo c o = some k ↔ ∃ h, s.checkpoints c k = some (h, o)

theorem CInv.view {s s' : State} {x : Step} (h : CInv s) (v : View s x s') : CInv s' := by
  cases v with
  | same => exact h
  | elsewhere f => exact ⟨h.ids, h.origin⟩
  | feeSet c f => exact ⟨h.ids, h.origin⟩
  | registered => exact ⟨h.ids, h.origin⟩
  | updated => exact ⟨h.ids, h.origin⟩
  | checkpoint env handler hash chain origin auth n tm h0 h1 hn ht hs =>
    refine ⟨?_, ?_⟩
    · intro c k
      simp only [cpState]
      by_cases hc : c = chain
      · subst hc
        simp only [upd_same]
        by_cases hk : k = s.nextCheckpoint c
        · subst hk; simp; omega
        · rw [upd_ne _ _ hk, h.ids c k]
          have : k.val ≠ (s.nextCheckpoint c).val := fun e => hk (Fin.ext e)
          omega
      · rw [upd_ne _ _ hc, upd_ne _ _ hc]; exact h.ids c k
    · intro c o k
      simp only [cpState]
      by_cases hc : c = chain
      · subst hc
        simp only [upd_same]
        have hnew : s.checkpoints c (s.nextCheckpoint c) = none := by
          have := h.ids c (s.nextCheckpoint c); simpa using this
        by_cases ho : o = origin
        · subst ho
          simp only [upd_same, Option.some.injEq]
          constructor
          · intro hk; subst hk; exact ⟨hash, by simp⟩
          · rintro ⟨g, hg⟩
            by_cases hk : k = s.nextCheckpoint c
            · exact hk.symm
            · rw [upd_ne _ _ hk] at hg
              have := (h.origin c o k).mpr ⟨g, hg⟩
              rw [h1] at this; cases this
        · rw [upd_ne _ _ ho, h.origin c o k]
          constructor
          · rintro ⟨g, hg⟩
            refine ⟨g, ?_⟩
            rw [upd_ne]
            · exact hg
            · intro hk; rw [hk, hnew] at hg; cases hg
          · rintro ⟨g, hg⟩
            by_cases hk : k = s.nextCheckpoint c
            · subst hk; simp only [upd_same, Option.some.injEq, Prod.mk.injEq] at hg
              exact absurd hg.2.symm ho
            · rw [upd_ne _ _ hk] at hg; exact ⟨g, hg⟩
      · rw [upd_ne _ _ hc, upd_ne _ _ hc]; exact h.origin c o k

theorem run_cinv (f : Nat) (tm : TokenManager.State) (l : List Step) : CInv (run f tm l) :=
  run_invariant f tm ⟨by simp [init], by simp [init]⟩ (fun _ _ _ h v => h.view v) l

theorem checkpoint_stable {s s' : State} {x : Step} (h : CInv s) (v : View s x s') {c : U32} {k : U64} {d : Hash × U64}
    (hd : s.checkpoints c k = some d) : s'.checkpoints c k = some d := by
  cases v with
  | same => exact hd
  | elsewhere f => exact hd
  | feeSet c f => exact hd
  | registered => exact hd
  | updated => exact hd
  | checkpoint env handler hash chain origin auth n tm h0 h1 hn ht hs =>
    simp only [cpState]
    by_cases hc : c = chain
    · subst hc
      simp only [upd_same]
      rw [upd_ne]
      · exact hd
      · intro hk
        have := (h.ids c k).mp (by rw [hd]; rfl)
        rw [hk] at this; omega
    · rw [upd_ne _ _ hc]; exact hd

theorem foldl_stable (m : List Step) : ∀ (s : State), CInv s → ∀ {c : U32} {k : U64} {d : Hash × U64},
    s.checkpoints c k = some d → (m.foldl step s).checkpoints c k = some d := by
  induction m with
  | nil => intro s _ c k d h; exact h
  | cons x m ih =>
    intro s hs c k d h
    exact ih _ (hs.view (step_view s x)) (checkpoint_stable hs (step_view s x) h)

end Verif.Anchor
