import Verif.Model.BridgeWorker
import Verif.Props.EthBridgeSetup
import Mathlib.Data.List.Perm.Subperm

/-!
# C88: honest off-chain workers carry a request through
-/

namespace Verif.BridgeTx

variable {W : Type} (env : Env W)

/-! ### What a worker does -/

/-- The conditions under which a worker may submit a call. -/
def Justified (sv : Service) (s : State W) (req : Active) (author : Nat) : Step W → Prop
  | .confirm id sig x => x = author ∧ sv.sign req.msgHash = some sig ∧ sig ∉ req.confirmations ∧
      enoughConfirmations s req.request req.confirmations.length = false ∧ req.request.idMatches id = true ∧ isSender req author = false
  | .ethTxHash id h x => x = author ∧ ∃ r d, req.request = .send r ∧ req.txData = some d ∧ id = r.txId ∧ d.sender = author ∧
      d.ethTxHash = 0 ∧ enoughConfirmations s req.request req.confirmations.length = true ∧ sv.send req = some h ∧ sv.locked r.txId = false
  | .corroborate id ok valid x replay => x = author ∧ ∃ r d v, req.request = .send r ∧ req.txData = some d ∧ id = r.txId ∧
      d.sender ≠ author ∧ enoughConfirmations s req.request req.confirmations.length = true ∧ (d.ethTxHash ≠ 0 ∨ s.now > d.expiry) ∧
      author ∉ d.success ∧ author ∉ d.failure ∧ sv.report req = some (some ok, v) ∧ valid = v.getD false ∧ replay = d.replay
  | _ => False

/-- **C88, a worker acts only with cause.** Whatever a worker submits concerns the request in progress, as of a finalised block, in its own
author's name: a confirmation only while confirmations are missing, with the signature its node gave for exactly that message, and never by the
sender; a transaction hash only by the sender, once, with enough confirmations, and the one its node got from sending; a corroboration only by
another author, of a request that has enough confirmations and was sent or has expired, not twice, and exactly what its node reported. -/
theorem C88_worker_acts_with_cause (sv : Service) (finalised : Nat) (s : State W) (author : Nat) (op : Step W)
    (h : work sv finalised s author = some op) :
    ∃ req, s.active = some req ∧ req.lastUpdated ≤ finalised ∧ Justified sv s req author op := by
  unfold work at h
  cases ha : s.active with
  | none => rw [ha] at h; cases h
  | some req =>
    rw [ha] at h
    dsimp only at h
    by_cases hf : finalised < req.lastUpdated
    · rw [if_pos hf] at h; cases h
    rw [if_neg hf] at h
    refine ⟨req, rfl, by omega, ?_⟩
    have hconf : ∀ id, workConfirm sv req id author = some op → enoughConfirmations s req.request req.confirmations.length = false →
        req.request.idMatches id = true → isSender req author = false → Justified sv s req author op := by
      intro id hw he hid hs
      unfold workConfirm at hw
      cases hsig : sv.sign req.msgHash with
      | none => rw [hsig] at hw; cases hw
      | some sig =>
        rw [hsig] at hw
        dsimp only at hw
        by_cases hm : sig ∈ req.confirmations
        · rw [if_pos hm] at hw; cases hw
        · rw [if_neg hm] at hw
          injection hw with hw
          subst hw
          exact ⟨rfl, hsig, hm, he, hid, hs⟩
    cases hr : req.request with
    | lower r =>
      rw [hr] at h
      dsimp only at h
      by_cases he : enoughConfirmations s (.lower r) req.confirmations.length = true
      · rw [if_pos he] at h; cases h
      rw [if_neg he] at h
      exact hconf _ h (by rw [hr]; simpa using he) (by rw [hr]; simp [Request.idMatches]) (by simp [isSender, hr])
    | send r =>
      rw [hr] at h
      dsimp only at h
      cases hd : req.txData with
      | none => rw [hd] at h; cases h
      | some d =>
        rw [hd] at h
        dsimp only at h
        by_cases hc : author ≠ d.sender ∧ enoughConfirmations s (.send r) req.confirmations.length = false
        · rw [if_pos hc] at h
          exact hconf _ h (by rw [hr]; exact hc.2) (by rw [hr]; simp [Request.idMatches]) (by simp [isSender, hr, hd, hc.1])
        rw [if_neg hc] at h
        unfold workTx at h
        by_cases h1 : author = d.sender ∧ enoughConfirmations s (.send r) req.confirmations.length = true ∧ d.ethTxHash = 0
        · rw [if_pos h1] at h
          by_cases hl : sv.locked r.txId = true
          · rw [if_pos hl] at h; cases h
          rw [if_neg hl] at h
          cases hs : sv.send req with
          | none => rw [hs] at h; cases h
          | some x =>
            rw [hs] at h
            injection h with h
            subst h
            exact ⟨rfl, r, d, hr, hd, rfl, h1.1.symm, h1.2.2, by rw [hr]; exact h1.2.1, hs, by simpa using hl⟩
        rw [if_neg h1] at h
        by_cases h2 : author ≠ d.sender ∧ (d.ethTxHash ≠ 0 ∨ s.now > d.expiry)
        · rw [if_pos h2] at h
          by_cases h3 : author ∉ d.success ∧ author ∉ d.failure
          · rw [if_pos h3] at h
            have he : enoughConfirmations s (.send r) req.confirmations.length = true := by
              by_cases e : enoughConfirmations s (.send r) req.confirmations.length = true
              · exact e
              · exact absurd ⟨h2.1, by simpa using e⟩ hc
            cases hrep : sv.report req with
            | none => rw [hrep] at h; cases h
            | some q =>
              obtain ⟨st, v⟩ := q
              rw [hrep] at h
              cases st with
              | none => cases h
              | some st =>
                injection h with h
                subst h
                exact ⟨rfl, r, d, v, hr, hd, rfl, Ne.symm h2.1, by rw [hr]; exact he, h2.2, h3.1, h3.2, hrep, rfl, rfl⟩
          · rw [if_neg h3] at h; cases h
        · rw [if_neg h2] at h; cases h

/-! ### Schedules -/

/-- One event: an author's worker runs and its call, if any, is included; or some other step is taken. -/
inductive Ev (W : Type) where
  | work (a : Nat)
  | other (op : Step W)

/-- Effect of an event. -/
def play (sv : Nat → Service) (fin : Nat) (s : State W) : Ev W → State W
  | .work a => match work (sv a) fin s a with
    | some op => step env s op
    | none => s
  | .other op => step env s op

/-- Effect of a schedule. -/
def playAll (sv : Nat → Service) (fin : Nat) (s : State W) (l : List (Ev W)) : State W := l.foldl (play env sv fin) s

theorem playAll_cons (sv : Nat → Service) (fin : Nat) (s : State W) (e : Ev W) (l : List (Ev W)) :
    playAll env sv fin s (e :: l) = playAll env sv fin (play env sv fin s e) l := rfl

theorem playAll_append (sv : Nat → Service) (fin : Nat) (s : State W) (k l : List (Ev W)) :
    playAll env sv fin s (k ++ l) = playAll env sv fin (playAll env sv fin s k) l := by
  simp [playAll, List.foldl_append]

theorem step_log (s : State W) (op : Step W) (o : Obs) (h : o ∈ s.log) : o ∈ (step env s op).log := by
  by_cases hx : ∀ w avn now block lifetime, op ≠ .external w avn now block lifetime
  · obtain ⟨n, hn, _⟩ := (step_facts env s op hx).delivered
    rw [hn]; exact List.mem_append_left _ h
  · cases op <;> simp at hx
    exact h

theorem play_log (sv : Nat → Service) (fin : Nat) (s : State W) (e : Ev W) (o : Obs) (h : o ∈ s.log) :
    o ∈ (play env sv fin s e).log := by
  cases e with
  | other op => exact step_log env s op o h
  | work a =>
    dsimp only [play]
    cases hw : work (sv a) fin s a with
    | none => exact h
    | some op => exact step_log env s op o h

theorem playAll_log (sv : Nat → Service) (fin : Nat) (l : List (Ev W)) (s : State W) (o : Obs) (h : o ∈ s.log) :
    o ∈ (playAll env sv fin s l).log := by
  induction l generalizing s with
  | nil => exact h
  | cons a l ih => rw [playAll_cons]; exact ih _ (play_log env sv fin s a o h)

/-- The situation: the authors, those that may misbehave, the finalised block, the request, its message hash and its sender. -/
structure Ctx where
  vals : List Avn.Validator
  bad : List Nat
  fin : Nat
  r : SendReq
  msgHash : Nat
  sender : Nat

/-- Corroborations needed: a quorum of the authors other than the sender. -/
def Ctx.quorum (c : Ctx) : Nat := Avn.requiredFor (c.vals.length - 1)

/-- `c`'s request is in progress in `s`. -/
structure Live (c : Ctx) (s : State W) (req : Active) (d : TxData) : Prop where
  active : s.active = some req
  request : req.request = .send c.r
  tx : req.txData = some d
  hash : req.msgHash = c.msgHash
  sender : d.sender = c.sender
  fail : d.failure ⊆ c.bad
  nodup : d.failure.Nodup
  vals : s.avn.validators = c.vals
  block : s.block ≤ c.fin
  upd : req.lastUpdated ≤ c.fin
  few : d.success.length < c.quorum
  balance : d.validHash.length + d.invalidHash.length = d.success.length + d.failure.length

/-- Bounds on the situation. -/
structure Fits (c : Ctx) : Prop where
  most : c.vals.length ≤ 151
  least : 2 ≤ c.vals.length
  bad : c.bad.length < c.quorum
  sender : c.sender ∉ c.bad
  ok : ∀ w, (env.onResult w c.r.txId c.r.callerId true).2 = true

/-- Steps that may be taken besides the honest workers' calls: anything the misbehaving authors submit, new requests from other pallets, and
whatever else happens as long as the author set stays and the finalised block is not overtaken. -/
def Tolerated (c : Ctx) : Step W → Prop
  | .confirm _ _ a => a ∈ c.bad
  | .ethTxHash _ _ a => a ∈ c.bad
  | .corroborate _ _ _ a _ => a ∈ c.bad
  | .publish .. => True
  | .lowerProof .. => True
  | .setTxId _ => True
  | .external _ avn _ block _ => avn.validators = c.vals ∧ block ≤ c.fin
  | .removeActive => False
  | .setInstance .. => False

/-- The steps under which a request stays in progress or succeeds. -/
def Harmless (c : Ctx) : Step W → Prop
  | .confirm .. => True
  | .ethTxHash .. => True
  | .corroborate _ ok _ a _ => ok = true ∨ a ∈ c.bad
  | .publish .. => True
  | .lowerProof .. => True
  | .setTxId _ => True
  | .external _ avn _ block _ => avn.validators = c.vals ∧ block ≤ c.fin
  | .removeActive => False
  | .setInstance .. => False

/-- What is recorded stays. -/
structure Later (req : Active) (d : TxData) (req' : Active) (d' : TxData) : Prop where
  confs : req.confirmations ⊆ req'.confirmations
  len : req.confirmations.length ≤ req'.confirmations.length
  sent : d.ethTxHash ≠ 0 → d'.ethTxHash ≠ 0
  succ : d.success ⊆ d'.success

theorem Later.refl (req : Active) (d : TxData) : Later req d req d := ⟨fun _ h => h, Nat.le_refl _, fun h => h, fun _ h => h⟩

theorem Later.trans {a b c : Active} {x y z : TxData} (h : Later a x b y) (k : Later b y c z) : Later a x c z :=
  ⟨fun _ m => k.confs (h.confs m), Nat.le_trans h.len k.len, fun m => k.sent (h.sent m), fun _ m => k.succ (h.succ m)⟩

/-- What a call achieves. -/
def Did (env : Env W) (c : Ctx) (req : Active) (d : TxData) (req' : Active) (d' : TxData) : Step W → Prop
  | .confirm id sig a => id = c.r.txId → Avn.isValidator c.vals a = true → env.signer c.msgHash sig = some a → a ≠ c.sender →
      Avn.requiredFor c.vals.length ≤ req.confirmations.length + 1 ∨ sig ∈ req'.confirmations
  | .ethTxHash id h a => id = c.r.txId → Avn.isValidator c.vals a = true → a = c.sender → d.ethTxHash = 0 → d'.ethTxHash = h
  | .corroborate id ok _ a rep => id = c.r.txId → Avn.isValidator c.vals a = true → a ≠ c.sender → ok = true → rep = d.replay →
      a ∉ d.failure → a ∈ d'.success
  | _ => True

theorem quorum_small {c : Ctx} (h : c.vals.length ≤ 151) : Avn.requiredFor c.vals.length ≤ 51 ∧ c.quorum ≤ 50 := by
  unfold Ctx.quorum Avn.requiredFor
  omega

theorem enoughCorr_iff {c : Ctx} {s : State W} (hv : s.avn.validators = c.vals) (h : c.vals.length ≤ 151) (h2 : 2 ≤ c.vals.length) (n : Nat) :
    enoughCorroborations s n = true ↔ c.quorum ≤ n := by
  unfold enoughCorroborations nAuthors
  rw [hv]
  have : (c.vals.length + pow32 - 1) % pow32 = c.vals.length - 1 := by
    have : c.vals.length + pow32 - 1 = c.vals.length - 1 + pow32 := by omega
    rw [this, Nat.add_mod_right, Nat.mod_eq_of_lt]
    have : pow32 = 4294967296 := rfl
    omega
  rw [this, decide_eq_true_eq]
  rfl

theorem enoughConf_eq {c : Ctx} {s : State W} {req : Active} {d : TxData} (hl : Live c s req d) (n : Nat) :
    enoughConfirmations s req.request n = decide (Avn.requiredFor c.vals.length ≤ n + 1) := by
  rw [hl.request]
  simp only [enoughConfirmations, nAuthors, hl.vals]

theorem live_call (c : Ctx) (hf : Fits env c) (s : State W) (req : Active) (d : TxData) (hl : Live c s req d) (op : Step W) (ho : Harmless c op) :
    (∃ req' d', Live c (step env s op) req' d' ∧ Later req d req' d' ∧ Did env c req d req' d' op) ∨
      .result c.r.txId c.r.callerId true ∈ (step env s op).log := by
  obtain ⟨q1, q2⟩ := quorum_small hf.most
  -- the request is untouched
  have kept : ∀ s' : State W, s'.active = s.active → s'.avn = s.avn → s'.block = s.block → Live c s' req d := by
    intro s' e1 e2 e3
    exact ⟨by rw [e1]; exact hl.active, hl.request, hl.tx, hl.hash, hl.sender, hl.fail, hl.nodup, by rw [e2]; exact hl.vals, by rw [e3]; exact hl.block,
      hl.upd, hl.few, hl.balance⟩
  have hsome : s.active.isSome = true := by rw [hl.active]; rfl
  cases op with
  | removeActive => exact absurd ho id
  | setInstance v i => exact absurd ho id
  | setTxId i => exact .inl ⟨req, d, kept _ rfl rfl rfl, Later.refl _ _, trivial⟩
  | external w avn now block lifetime =>
    refine .inl ⟨req, d, ?_, Later.refl _ _, trivial⟩
    exact ⟨hl.active, hl.request, hl.tx, hl.hash, hl.sender, hl.fail, hl.nodup, ho.1, ho.2, hl.upd, hl.few, hl.balance⟩
  | publish name params caller rb =>
    refine .inl ⟨req, d, ?_, Later.refl _ _, trivial⟩
    have e : (step env s (.publish name params caller rb)).active = s.active ∧ (step env s (.publish name params caller rb)).avn = s.avn ∧
        (step env s (.publish name params caller rb)).block = s.block := by
      simp only [step, publish, enqueueOrSetUp, hsome, if_true, queueRequest]
      by_cases h1 : env.validUtf8 name = false
      · cases rb <;> simp [h1]
      by_cases h2 : name = []
      · subst h2; cases rb <;> simp [h1]
      by_cases h3 : name.length > 32
      · cases rb <;> simp [h1, h2, h3]
      by_cases h4 : paramsFit params = false
      · cases rb <;> simp [h1, h2, h3, h4]
      by_cases h5 : caller.length > 50
      · cases rb <;> simp [h1, h2, h3, h4, h5]
      by_cases h6 : s.queue.length < env.maxQueued
      · cases rb <;> simp [h1, h2, h3, h4, h5, h6]
      · cases rb <;> simp [h1, h2, h3, h4, h5, h6]
    exact kept _ e.1 e.2.1 e.2.2
  | lowerProof id params caller =>
    refine .inl ⟨req, d, ?_, Later.refl _ _, trivial⟩
    have e : (step env s (.lowerProof id params caller)).active = s.active ∧ (step env s (.lowerProof id params caller)).avn = s.avn ∧
        (step env s (.lowerProof id params caller)).block = s.block := by
      simp only [step, generateLowerProof, enqueueOrSetUp, hsome, if_true, queueRequest]
      by_cases h1 : caller.length > 50
      · simp [h1]
      · by_cases h2 : s.queue.length < env.maxQueued
        · simp [h1, h2]
        · simp [h1, h2]
    exact kept _ e.1 e.2.1 e.2.2
  | confirm id sig a =>
    have hcs : step env s (.confirm id sig a) = s ∨
        step env s (.confirm id sig a) = { s with active := some { req with confirmations := req.confirmations ++ [sig], lastUpdated := s.block } } := by
      dsimp only [step]
      by_cases hv : Avn.isValidator s.avn.validators a = true
      · rw [if_pos hv]
        unfold addConfirmation
        rw [hl.active]
        dsimp only
        by_cases h1 : req.request.idMatches id = false
        · rw [if_pos h1]; exact .inl rfl
        rw [if_neg h1]
        by_cases h2 : enoughConfirmations s req.request req.confirmations.length = true
        · rw [if_pos h2]; exact .inl rfl
        rw [if_neg h2]
        by_cases h3 : isSender req a = true
        · rw [if_pos h3]; exact .inl rfl
        rw [if_neg h3]
        by_cases h4 : verifySignature env s req.msgHash a sig = false
        · rw [if_pos h4]; exact .inl rfl
        rw [if_neg h4]
        by_cases h5 : sig ∈ req.confirmations
        · rw [if_pos h5]; exact .inl rfl
        rw [if_neg h5]
        by_cases h6 : req.confirmations.length ≥ confirmationsLimit
        · rw [if_pos h6]; exact .inl rfl
        rw [if_neg h6]
        simp only [hl.request, commit]
        exact .inr trivial
      · rw [if_neg hv]; exact .inl rfl
    have hdid : id = c.r.txId → Avn.isValidator c.vals a = true → env.signer c.msgHash sig = some a → a ≠ c.sender →
        Avn.requiredFor c.vals.length ≤ req.confirmations.length + 1 ∨ sig ∈ req.confirmations ∨ step env s (.confirm id sig a) ≠ s := by
      intro hid hv hs hne
      by_cases h2 : Avn.requiredFor c.vals.length ≤ req.confirmations.length + 1
      · exact .inl h2
      by_cases h5 : sig ∈ req.confirmations
      · exact .inr (.inl h5)
      refine .inr (.inr ?_)
      have hvs : Avn.isValidator s.avn.validators a = true := by rw [hl.vals]; exact hv
      dsimp only [step]
      rw [if_pos hvs]
      unfold addConfirmation
      rw [hl.active]
      dsimp only
      rw [if_neg (by rw [hl.request]; simp [Request.idMatches, hid]), if_neg (by rw [enoughConf_eq hl]; simpa using h2),
        if_neg (by simp [isSender, hl.request, hl.tx, hl.sender, hne]), if_neg (by simp [verifySignature, hvs, hl.hash, hs]), if_neg h5,
        if_neg (by unfold confirmationsLimit; omega)]
      simp only [hl.request, commit]
      intro e
      have := congrArg State.active e
      rw [hl.active] at this
      injection this with this
      have := congrArg (fun x : Active => x.confirmations.length) this
      simp at this
    rcases hcs with e | e
    · refine .inl ⟨req, d, by rw [e]; exact hl, Later.refl _ _, ?_⟩
      intro i v g n
      rcases hdid i v g n with h | h | h
      · exact .inl h
      · exact .inr h
      · exact absurd e h
    · rw [e]
      refine .inl ⟨_, d, ⟨rfl, hl.request, hl.tx, hl.hash, hl.sender, hl.fail, hl.nodup, hl.vals, hl.block, hl.block, hl.few, hl.balance⟩,
        ⟨fun _ h => List.mem_append_left _ h, by simp, fun h => h, fun _ h => h⟩, fun _ _ _ _ => .inr (by simp)⟩
  | ethTxHash id x a =>
    by_cases hg : (id = c.r.txId ∧ Avn.isValidator c.vals a = true ∧ a = c.sender) ∧ d.ethTxHash = 0
    · obtain ⟨⟨g1, g2, g3⟩, g4⟩ := hg
      have e : step env s (.ethTxHash id x a) = { s with active := some { req with txData := some { d with ethTxHash := x }, lastUpdated := s.block } } := by
        dsimp only [step]
        rw [if_pos (by rw [hl.vals]; exact g2)]
        unfold addEthTxHash
        rw [hl.active]
        dsimp only
        rw [if_neg (by rw [hl.request]; simp [Request.idMatches, g1]), hl.tx]
        dsimp only
        rw [if_neg (by simp [g4]), if_neg (by simp [g3, hl.sender])]
        rfl
      rw [e]
      exact .inl ⟨_, _, ⟨rfl, hl.request, rfl, hl.hash, hl.sender, hl.fail, hl.nodup, hl.vals, hl.block, hl.block, hl.few, hl.balance⟩,
        ⟨fun _ h => h, Nat.le_refl _, fun h => absurd g4 h, fun _ h => h⟩, fun _ _ _ _ => rfl⟩
    · have e : step env s (.ethTxHash id x a) = s := by
        dsimp only [step]
        by_cases hv : Avn.isValidator s.avn.validators a = true
        · rw [if_pos hv]
          unfold addEthTxHash
          rw [hl.active]
          dsimp only
          by_cases h1 : req.request.idMatches id = false
          · rw [if_pos h1]; rfl
          rw [if_neg h1, hl.tx]
          dsimp only
          by_cases h2 : d.ethTxHash ≠ 0
          · rw [if_pos h2]; rfl
          rw [if_neg h2]
          by_cases h3 : d.sender ≠ a
          · rw [if_pos h3]; rfl
          · exfalso
            refine hg ⟨⟨?_, by rw [← hl.vals]; exact hv, ?_⟩, by simpa using h2⟩
            · rw [hl.request] at h1; simp [Request.idMatches] at h1; exact h1.symm
            · rw [← hl.sender]; simpa using (Eq.symm (by simpa using h3))
        · rw [if_neg hv]
      refine .inl ⟨req, d, by rw [e]; exact hl, Later.refl _ _, fun g1 g2 g3 g4 => absurd ⟨⟨g1, g2, g3⟩, g4⟩ hg⟩
  | corroborate id ok valid a rep =>
    by_cases hg : (id = c.r.txId ∧ Avn.isValidator c.vals a = true ∧ a ≠ c.sender) ∧ rep = d.replay ∧ a ∉ d.success ∧ a ∉ d.failure
    · obtain ⟨⟨g1, g2, g3⟩, g4, g5, g6⟩ := hg
      have hbal := hl.balance
      have hf1 := hl.few
      have hb := hf.bad
      have hf2 : d.failure.length ≤ c.bad.length := (hl.nodup.subperm hl.fail).length_le
      have hstep : step env s (.corroborate id ok valid a rep) = commit s
          (if enoughCorroborations s (if ok then d.success ++ [a] else d.failure ++ [a]).length then finalizeState env s c.r (addCorr d ok valid a) ok
           else .ok { s with active := some { req with txData := some (addCorr d ok valid a), lastUpdated := s.block } }) := by
        dsimp only [step]
        rw [if_pos (by rw [hl.vals]; exact g2)]
        unfold addCorroboration
        rw [hl.active]
        dsimp only
        rw [if_neg (by rw [hl.request]; simp [Request.idMatches, g1]), hl.tx]
        dsimp only
        rw [if_neg (by simp [g4]), if_neg (by rw [hl.sender]; exact g3), if_neg (by rintro (h | h); exacts [g5 h, g6 h])]
        rw [if_neg (by cases valid <;> simp [confirmationsLimit] <;> omega), if_neg (by cases ok <;> simp [confirmationsLimit] <;> omega)]
        have : (if ok then (addCorr d ok valid a).success else (addCorr d ok valid a).failure) = (if ok then d.success ++ [a] else d.failure ++ [a]) := by
          cases ok <;> simp [addCorr_success, addCorr_failure]
        simp only [this, hl.request]
      have hrest := addCorr_rest d ok valid a
      have goOn : (addCorr d ok valid a).success.length < c.quorum → (ok = false → a ∈ c.bad) →
          step env s (.corroborate id ok valid a rep) = { s with active := some { req with txData := some (addCorr d ok valid a), lastUpdated := s.block } } →
          (∃ req' d', Live c (step env s (.corroborate id ok valid a rep)) req' d' ∧ Later req d req' d' ∧
            Did env c req d req' d' (.corroborate id ok valid a rep)) := by
        intro hlt hbad e
        rw [e]
        have hbal' : (addCorr d ok valid a).validHash.length + (addCorr d ok valid a).invalidHash.length =
            (addCorr d ok valid a).success.length + (addCorr d ok valid a).failure.length := by
          cases ok <;> cases valid <;> simp [addCorr] <;> omega
        refine ⟨_, addCorr d ok valid a, ⟨rfl, hl.request, rfl, hl.hash, by rw [hrest.1]; exact hl.sender, ?_, ?_, hl.vals, hl.block, hl.block, hlt, hbal'⟩,
          ⟨fun _ h => h, Nat.le_refl _, fun h => by rw [hrest.2.1]; exact h, ?_⟩, ?_⟩
        · rw [addCorr_failure]
          cases ok
          · simp only [Bool.false_eq_true, if_false]
            intro x hx
            rcases List.mem_append.1 hx with h | h
            · exact hl.fail h
            · rw [List.mem_singleton.1 h]; exact hbad rfl
          · exact hl.fail
        · rw [addCorr_failure]
          cases ok
          · simp only [Bool.false_eq_true, if_false]
            exact List.nodup_append.2 ⟨hl.nodup, by simp, by intro x hx y hy e; subst e; rw [List.mem_singleton.1 hy] at hx; exact g6 hx⟩
          · exact hl.nodup
        · rw [addCorr_success]
          cases ok
          · exact fun _ h => h
          · exact fun _ h => List.mem_append_left _ h
        · intro _ _ _ hok _ _
          rw [addCorr_success, hok]; simp
      cases ok with
      | true =>
        simp only [if_true] at hstep
        by_cases hen : enoughCorroborations s (d.success ++ [a]).length = true
        · rw [if_pos hen] at hstep
          rw [hstep]
          refine .inr ?_
          unfold finalizeState
          simp only [Bool.not_true, Bool.false_and, Bool.false_eq_true, if_false]
          unfold completeTransaction
          dsimp only
          rw [if_neg (by rw [hf.ok]; simp)]
          dsimp only [commit]
          obtain ⟨dr, hlog, _⟩ := processNext_finished env s { s with
            world := (env.onResult s.world c.r.txId c.r.callerId true).1
            settled := upd s.settled c.r.txId (some { name := c.r.name, params := (addCorr d true valid a).params, sender := (addCorr d true valid a).sender, ethTxHash := if true && enoughCorroborations s (addCorr d true valid a).invalidHash.length then 0 else (addCorr d true valid a).ethTxHash, succeeded := true })
            log := s.log ++ [.result c.r.txId c.r.callerId true] } (.result c.r.txId c.r.callerId true) rfl rfl rfl
          rw [hlog]
          simp
        · rw [if_neg hen] at hstep
          refine .inl (goOn ?_ (fun h => by cases h) hstep)
          rw [enoughCorr_iff hl.vals hf.most hf.least] at hen
          rw [addCorr_success, if_pos rfl]; omega
      | false =>
        simp only [Bool.false_eq_true, if_false] at hstep
        have hab : a ∈ c.bad := by rcases ho with h | h; cases h; exact h
        have hlen : (d.failure ++ [a]).length ≤ c.bad.length := by
          have hn : (d.failure ++ [a]).Nodup :=
            List.nodup_append.2 ⟨hl.nodup, by simp, by intro x hx y hy e; subst e; rw [List.mem_singleton.1 hy] at hx; exact g6 hx⟩
          refine (hn.subperm ?_).length_le
          intro x hx
          rcases List.mem_append.1 hx with h | h
          · exact hl.fail h
          · rw [List.mem_singleton.1 h]; exact hab
        have hen : ¬ enoughCorroborations s (d.failure ++ [a]).length = true := by
          rw [enoughCorr_iff hl.vals hf.most hf.least]; omega
        rw [if_neg hen] at hstep
        refine .inl (goOn ?_ (fun _ => hab) hstep)
        rw [addCorr_success, if_neg (by simp)]; exact hf1
    · have e : step env s (.corroborate id ok valid a rep) = s := by
        dsimp only [step]
        by_cases hv : Avn.isValidator s.avn.validators a = true
        · rw [if_pos hv]
          unfold addCorroboration
          rw [hl.active]
          dsimp only
          by_cases h1 : req.request.idMatches id = false
          · rw [if_pos h1]; rfl
          rw [if_neg h1, hl.tx]
          dsimp only
          by_cases h2 : rep ≠ d.replay
          · rw [if_pos h2]; rfl
          rw [if_neg h2]
          by_cases h3 : a = d.sender
          · rw [if_pos h3]; rfl
          rw [if_neg h3]
          by_cases h4 : a ∈ d.success ∨ a ∈ d.failure
          · rw [if_pos h4]; rfl
          · exfalso
            refine hg ⟨⟨?_, by rw [← hl.vals]; exact hv, by rw [← hl.sender]; exact h3⟩, by simpa using h2, fun h => h4 (.inl h), fun h => h4 (.inr h)⟩
            rw [hl.request] at h1; simp [Request.idMatches] at h1; exact h1.symm
        · rw [if_neg hv]
      refine .inl ⟨req, d, by rw [e]; exact hl, Later.refl _ _, ?_⟩
      intro g1 g2 g3 _ g4 g6
      by_cases g5 : a ∈ d.success
      · exact g5
      · exact absurd ⟨⟨g1, g2, g3⟩, g4, g5, g6⟩ hg

/-- An author whose node works: its signature of the message is its own, what it sends gets a hash, and it reports what Ethereum says of the request:
that it succeeded. -/
structure Honest (c : Ctx) (sv : Nat → Service) (a : Nat) : Prop where
  sign : ∃ sig, (sv a).sign c.msgHash = some sig ∧ env.signer c.msgHash sig = some a
  send : ∀ req : Active, req.request = .send c.r → ∃ h, h ≠ 0 ∧ (sv a).send req = some h
  unlocked : (sv a).locked c.r.txId = false
  report : ∀ req : Active, req.request = .send c.r → ∃ v, (sv a).report req = some (some true, v)

/-- The author's signature of the message is among the confirmations. -/
def HasSigned (env : Env W) (c : Ctx) (req : Active) (a : Nat) : Prop := ∃ sig ∈ req.confirmations, env.signer c.msgHash sig = some a

/-- What events achieve for the request: the authors in `l` ran their workers. -/
structure Progress (env : Env W) (c : Ctx) (l : List Nat) (req : Active) (d : TxData) (req' : Active) (d' : TxData) : Prop where
  later : Later req d req' d'
  p1 : ∀ a ∈ l, a ≠ c.sender → Avn.requiredFor c.vals.length ≤ req'.confirmations.length + 1 ∨ HasSigned env c req' a
  p2 : c.sender ∈ l → Avn.requiredFor c.vals.length ≤ req.confirmations.length + 1 → d'.ethTxHash ≠ 0
  p3 : ∀ a ∈ l, a ≠ c.sender → Avn.requiredFor c.vals.length ≤ req.confirmations.length + 1 → d.ethTxHash ≠ 0 → a ∉ c.bad → a ∈ d'.success

theorem live_work (c : Ctx) (hf : Fits env c) (sv : Nat → Service) (s : State W) (req : Active) (d : TxData) (hl : Live c s req d) (a : Nat)
    (hv : Avn.isValidator c.vals a = true) (hh : Honest env c sv a) :
    (∃ req' d', Live c (play env sv c.fin s (.work a)) req' d' ∧ Progress env c [a] req d req' d') ∨
      .result c.r.txId c.r.callerId true ∈ (play env sv c.fin s (.work a)).log := by
  obtain ⟨sig, hsig, hrec⟩ := hh.sign
  have hnf : ¬ c.fin < req.lastUpdated := by have := hl.upd; omega
  have hEn := enoughConf_eq hl req.confirmations.length
  generalize hE : enoughConfirmations s req.request req.confirmations.length = E at hEn
  have hw : work (sv a) c.fin s a =
      if a ≠ d.sender ∧ E = false then workConfirm (sv a) req c.r.txId a else workTx (sv a) s req c.r d a E := by
    rw [← hE]
    unfold work
    rw [hl.active]
    dsimp only
    rw [if_neg hnf, hl.request]
    dsimp only
    rw [hl.tx]
  have stay : work (sv a) c.fin s a = none → Progress env c [a] req d req d →
      (∃ req' d', Live c (play env sv c.fin s (.work a)) req' d' ∧ Progress env c [a] req d req' d') ∨
        .result c.r.txId c.r.callerId true ∈ (play env sv c.fin s (.work a)).log := by
    intro hnone hp
    refine .inl ⟨req, d, ?_, hp⟩
    have : play env sv c.fin s (.work a) = s := by dsimp only [play]; rw [hnone]
    rw [this]; exact hl
  have go : ∀ op, work (sv a) c.fin s a = some op → Harmless c op →
      (∀ req' d', Later req d req' d' → Did env c req d req' d' op → Progress env c [a] req d req' d') →
      (∃ req' d', Live c (play env sv c.fin s (.work a)) req' d' ∧ Progress env c [a] req d req' d') ∨
        .result c.r.txId c.r.callerId true ∈ (play env sv c.fin s (.work a)).log := by
    intro op hop hharm hprog
    have : play env sv c.fin s (.work a) = step env s op := by dsimp only [play]; rw [hop]
    rw [this]
    rcases live_call env c hf s req d hl op hharm with ⟨req', d', h1, h2, h3⟩ | h
    · exact .inl ⟨req', d', h1, hprog req' d' h2 h3⟩
    · exact .inr h
  rw [hl.sender] at hw
  by_cases hc : a ≠ c.sender ∧ E = false
  · rw [if_pos hc] at hw
    have hnen : ¬ Avn.requiredFor c.vals.length ≤ req.confirmations.length + 1 := by
      rw [hc.2] at hEn; simpa using hEn.symm
    unfold workConfirm at hw
    rw [hl.hash, hsig] at hw
    dsimp only at hw
    by_cases hm : sig ∈ req.confirmations
    · rw [if_pos hm] at hw
      refine stay hw ⟨Later.refl _ _, ?_, fun _ h => absurd h hnen, fun _ _ _ h => absurd h hnen⟩
      intro x hx _
      rw [List.mem_singleton.1 hx]
      exact .inr ⟨sig, hm, hrec⟩
    · rw [if_neg hm] at hw
      refine go _ hw trivial (fun req' d' hlat hdid => ⟨hlat, ?_, fun _ h => absurd h hnen, fun _ _ _ h => absurd h hnen⟩)
      intro x hx _
      rw [List.mem_singleton.1 hx]
      rcases hdid rfl hv hrec hc.1 with h | h
      · exact absurd h hnen
      · exact .inr ⟨sig, h, hrec⟩
  · rw [if_neg hc] at hw
    have he : a ≠ c.sender → Avn.requiredFor c.vals.length ≤ req.confirmations.length + 1 := by
      intro ha
      by_cases e : E = true
      · rw [e] at hEn; simpa using hEn.symm
      · exact absurd ⟨ha, by simpa using e⟩ hc
    unfold workTx at hw
    rw [hl.sender] at hw
    by_cases h1 : a = c.sender ∧ E = true ∧ d.ethTxHash = 0
    · obtain ⟨x, hx0, hx⟩ := hh.send req hl.request
      rw [if_pos h1, hh.unlocked, hx] at hw
      simp only [Bool.false_eq_true, if_false] at hw
      refine go _ hw trivial (fun req' d' hlat hdid => ⟨hlat, ?_, fun _ _ => ?_, ?_⟩)
      · intro y hy hne; rw [List.mem_singleton.1 hy] at hne; exact absurd h1.1 hne
      · rw [hdid rfl hv h1.1 h1.2.2]; exact hx0
      · intro y hy hne; rw [List.mem_singleton.1 hy] at hne; exact absurd h1.1 hne
    rw [if_neg h1] at hw
    have p2 : c.sender ∈ [a] → Avn.requiredFor c.vals.length ≤ req.confirmations.length + 1 → d.ethTxHash ≠ 0 := by
      intro hs hen h0
      refine h1 ⟨(List.mem_singleton.1 hs).symm, ?_, h0⟩
      rw [hEn]; simpa using hen
    by_cases h2 : a ≠ c.sender ∧ (d.ethTxHash ≠ 0 ∨ s.now > d.expiry)
    · rw [if_pos h2] at hw
      by_cases h3 : a ∉ d.success ∧ a ∉ d.failure
      · rw [if_pos h3] at hw
        obtain ⟨v, hrep⟩ := hh.report req hl.request
        rw [hrep] at hw
        dsimp only at hw
        refine go _ hw (.inl rfl) (fun req' d' hlat hdid => ⟨hlat, ?_, fun hs hen => hlat.sent (p2 hs hen), ?_⟩)
        · intro y hy hne; rw [List.mem_singleton.1 hy] at hne
          exact .inl (Nat.le_trans (he hne) (Nat.succ_le_succ hlat.len))
        · intro y hy _ _ _ _
          rw [List.mem_singleton.1 hy]
          exact hdid rfl hv h2.1 rfl rfl h3.2
      · rw [if_neg h3] at hw
        refine stay hw ⟨Later.refl _ _, ?_, p2, ?_⟩
        · intro y hy hne; rw [List.mem_singleton.1 hy] at hne; exact .inl (he hne)
        · intro y hy _ _ _ hb
          rw [List.mem_singleton.1 hy] at hb ⊢
          by_cases hm : a ∈ d.success
          · exact hm
          · exact absurd ⟨hm, fun hf' => hb (hl.fail hf')⟩ h3
    · rw [if_neg h2] at hw
      refine stay hw ⟨Later.refl _ _, ?_, p2, ?_⟩
      · intro y hy hne; rw [List.mem_singleton.1 hy] at hne; exact .inl (he hne)
      · intro y hy hne _ hne0; rw [List.mem_singleton.1 hy] at hne; exact absurd ⟨hne, .inl hne0⟩ h2

/-- The authors whose workers run in a schedule. -/
def workers : List (Ev W) → List Nat
  | [] => []
  | .work a :: l => a :: workers l
  | .other _ :: l => workers l

/-- A schedule of honest workers and tolerated interference. -/
def Fair (c : Ctx) (sv : Nat → Service) (l : List (Ev W)) : Prop :=
  ∀ e ∈ l, match e with
    | .work a => Avn.isValidator c.vals a = true ∧ Honest env c sv a
    | .other op => Tolerated c op

theorem Progress.append {c : Ctx} {k l : List Nat} {r1 r2 r3 : Active} {d1 d2 d3 : TxData} (h : Progress env c k r1 d1 r2 d2)
    (g : Progress env c l r2 d2 r3 d3) : Progress env c (k ++ l) r1 d1 r3 d3 := by
  have hlen : Avn.requiredFor c.vals.length ≤ r1.confirmations.length + 1 → Avn.requiredFor c.vals.length ≤ r2.confirmations.length + 1 :=
    fun hh => Nat.le_trans hh (Nat.succ_le_succ h.later.len)
  refine ⟨h.later.trans g.later, ?_, ?_, ?_⟩
  · intro a ha hne
    rcases List.mem_append.1 ha with h1 | h1
    · rcases h.p1 a h1 hne with e | ⟨sig, m, e⟩
      · exact .inl (Nat.le_trans e (Nat.succ_le_succ g.later.len))
      · exact .inr ⟨sig, g.later.confs m, e⟩
    · exact g.p1 a h1 hne
  · intro hs hen
    rcases List.mem_append.1 hs with h1 | h1
    · exact g.later.sent (h.p2 h1 hen)
    · exact g.p2 h1 (hlen hen)
  · intro a ha hne hen hsent hb
    rcases List.mem_append.1 ha with h1 | h1
    · exact g.later.succ (h.p3 a h1 hne hen hsent hb)
    · exact g.p3 a h1 hne (hlen hen) (h.later.sent hsent) hb

theorem live_all (c : Ctx) (hf : Fits env c) (sv : Nat → Service) (l : List (Ev W)) (hfair : Fair env c sv l) (s : State W) (req : Active) (d : TxData)
    (hl : Live c s req d) :
    (∃ req' d', Live c (playAll env sv c.fin s l) req' d' ∧ Progress env c (workers l) req d req' d') ∨
      .result c.r.txId c.r.callerId true ∈ (playAll env sv c.fin s l).log := by
  induction l generalizing s req d with
  | nil =>
    exact .inl ⟨req, d, hl, Later.refl _ _, fun _ h => absurd h (by simp [workers]), fun h => absurd h (by simp [workers]),
      fun _ h => absurd h (by simp [workers])⟩
  | cons e l ih =>
    rw [playAll_cons]
    have hrest : Fair env c sv l := fun x hx => hfair x (List.mem_cons_of_mem _ hx)
    have hhead := hfair e (List.mem_cons_self ..)
    cases e with
    | work a =>
      rcases live_work env c hf sv s req d hl a hhead.1 hhead.2 with ⟨r1, d1, h1, h2⟩ | h
      · rcases ih hrest _ r1 d1 h1 with ⟨r2, d2, h3, h4⟩ | h
        · exact .inl ⟨r2, d2, h3, Progress.append env h2 h4⟩
        · exact .inr h
      · exact .inr (playAll_log env sv c.fin l _ _ h)
    | other op =>
      have hharm : Harmless c op := by
        cases op <;> first | trivial | exact hhead | exact .inr hhead
      rcases live_call env c hf s req d hl op hharm with ⟨r1, d1, h1, h2, _⟩ | h
      · rcases ih hrest _ r1 d1 h1 with ⟨r2, d2, h3, h4⟩ | h
        · refine .inl ⟨r2, d2, h3, ?_⟩
          have : Progress env c [] req d r1 d1 := ⟨h2, fun _ h => absurd h (by simp), fun h => absurd h (by simp), fun _ h => absurd h (by simp)⟩
          exact Progress.append env this h4
        · exact .inr h
      · exact .inr (playAll_log env sv c.fin l _ _ h)

/-- **C88, honest authors carry a transaction through.** A transaction request is in progress; fewer authors than a quorum of the corroborators
misbehave, the sender not among them. Whatever those submit, and whatever requests, payments and time steps come between (`Fair`): once enough honest authors have
run their workers, then the sender, then a quorum of honest corroborators, the originating pallet has been told that its request succeeded. -/
theorem C88_request_completes (c : Ctx) (hf : Fits env c) (sv : Nat → Service) (s : State W) (req : Active) (d : TxData) (hl : Live c s req d)
    (l1 l2 l3 : List (Ev W)) (hfair : Fair env c sv (l1 ++ l2 ++ l3))
    (signers : List Nat) (hs1 : signers ⊆ workers l1) (hs2 : signers.Nodup) (hs3 : c.sender ∉ signers)
    (hs4 : Avn.requiredFor c.vals.length ≤ signers.length + 1) (hsend : c.sender ∈ workers l2)
    (witnesses : List Nat) (hw1 : witnesses ⊆ workers l3) (hw2 : witnesses.Nodup) (hw3 : c.sender ∉ witnesses) (hw4 : ∀ a ∈ witnesses, a ∉ c.bad)
    (hw5 : c.quorum ≤ witnesses.length) :
    .result c.r.txId c.r.callerId true ∈ (playAll env sv c.fin s (l1 ++ l2 ++ l3)).log := by
  rw [playAll_append, playAll_append]
  have f1 : Fair env c sv l1 := fun e he => hfair e (by simp [he])
  have f2 : Fair env c sv l2 := fun e he => hfair e (by simp [he])
  have f3 : Fair env c sv l3 := fun e he => hfair e (by simp [he])
  rcases live_all env c hf sv l1 f1 s req d hl with ⟨r1, d1, h1, g1⟩ | h
  swap
  · exact playAll_log env sv c.fin _ _ _ (playAll_log env sv c.fin _ _ _ h)
  have hen : Avn.requiredFor c.vals.length ≤ r1.confirmations.length + 1 := by
    by_cases hen : Avn.requiredFor c.vals.length ≤ r1.confirmations.length + 1
    · exact hen
    have hsub : signers ⊆ r1.confirmations.filterMap (env.signer c.msgHash) := by
      intro a ha
      rcases g1.p1 a (hs1 ha) (fun e => hs3 (e ▸ ha)) with h | ⟨sig, m, e⟩
      · exact absurd h hen
      · exact List.mem_filterMap.2 ⟨sig, m, e⟩
    have := (hs2.subperm hsub).length_le
    have := List.length_filterMap_le (env.signer c.msgHash) r1.confirmations
    omega
  rcases live_all env c hf sv l2 f2 _ r1 d1 h1 with ⟨r2, d2, h2, g2⟩ | h
  swap
  · exact playAll_log env sv c.fin _ _ _ h
  have hsent := g2.p2 hsend hen
  have hen2 : Avn.requiredFor c.vals.length ≤ r2.confirmations.length + 1 := Nat.le_trans hen (Nat.succ_le_succ g2.later.len)
  rcases live_all env c hf sv l3 f3 _ r2 d2 h2 with ⟨r3, d3, h3, g3⟩ | h
  swap
  · exact h
  exfalso
  have hsub : witnesses ⊆ d3.success := fun a ha => g3.p3 a (hw1 ha) (fun e => hw3 (e ▸ ha)) hen2 hsent (hw4 a ha)
  have := (hw2.subperm hsub).length_le
  have := h3.few
  omega

theorem isValidator_iff {vs : List Avn.Validator} {a : Nat} : Avn.isValidator vs a = true ↔ a ∈ vs.map (·.account) := by
  simp [Avn.isValidator]

theorem workers_work (l : List Nat) : workers (W := W) (l.map .work) = l := by
  induction l with
  | nil => rfl
  | cons a l ih => simp [workers, ih]

/-- **C88, from publication to result.** With every author honest (2 to 151 of them), a request accepted while no other is in progress
succeeds after three rounds of the authors' workers. -/
theorem C88_published_request_completes (s0 : State W) (name : List UInt8) (params : List Param) (caller : List UInt8) (id : Nat)
    (hidle : s0.active = none) (hpub : (publish env s0 name params caller).2 = .ok id) (sv : Nat → Service)
    (hmost : s0.avn.validators.length ≤ 151) (hleast : 2 ≤ s0.avn.validators.length) (hnd : (s0.avn.validators.map (·.account)).Nodup)
    (hok : ∀ w, (env.onResult w id caller true).2 = true)
    (hhon : ∀ c : Ctx, c.r = ⟨id, name, params, caller⟩ → ∀ a ∈ s0.avn.validators.map (·.account), Honest env c sv a) :
    let authors := s0.avn.validators.map (·.account)
    .result id caller true ∈
      (playAll env sv s0.block (publish env s0 name params caller).1 ((authors ++ authors ++ authors).map .work)).log := by
  intro authors
  -- the state after publication
  have hset : ∃ s2, setUpTx env { s0 with nextTxId := wrapInc32 s0.nextTxId } ⟨id, name, params, caller⟩ 0 = .ok s2 ∧
      (publish env s0 name params caller).1 = { s2 with log := s2.log ++ [.accepted (.send ⟨id, name, params, caller⟩)] } := by
    unfold publish at hpub ⊢
    by_cases h1 : env.validUtf8 name = false
    · rw [if_pos h1] at hpub; cases hpub
    rw [if_neg h1] at hpub ⊢
    by_cases h2 : name = []
    · rw [if_pos h2] at hpub; cases hpub
    rw [if_neg h2] at hpub ⊢
    dsimp only at hpub ⊢
    by_cases h3 : name.length > 32
    · rw [if_pos h3] at hpub; cases hpub
    rw [if_neg h3] at hpub ⊢
    by_cases h4 : paramsFit params = false
    · rw [if_pos h4] at hpub; cases hpub
    rw [if_neg h4] at hpub ⊢
    by_cases h5 : caller.length > 50
    · rw [if_pos h5] at hpub; cases hpub
    rw [if_neg h5] at hpub ⊢
    unfold enqueueOrSetUp at hpub ⊢
    dsimp only at hpub ⊢
    rw [if_neg (by rw [hidle]; simp)] at hpub ⊢
    cases e : setUp env { s0 with nextTxId := wrapInc32 s0.nextTxId } (.send ⟨s0.nextTxId, name, params, caller⟩) with
    | error x => rw [e] at hpub; cases hpub
    | ok s2 =>
      rw [e] at hpub
      dsimp only at hpub
      injection hpub with hpub
      subst hpub
      exact ⟨s2, e, rfl⟩
  obtain ⟨s2, h2, hs⟩ := hset
  rw [hs]
  obtain ⟨⟨h, sender, _, hnext, hact⟩, _, _, _, hblk, _⟩ := setUpTx_prepared env h2
  dsimp only at hact hblk hnext
  obtain ⟨hvals, ⟨v, hv1, hv2⟩, _⟩ := hnext
  let c : Ctx := ⟨s0.avn.validators, [], s0.block, ⟨id, name, params, caller⟩, h, sender⟩
  have hq : c.quorum = Avn.requiredFor (s0.avn.validators.length - 1) := rfl
  have hq0 : 0 < c.quorum := by rw [hq]; unfold Avn.requiredFor; omega
  have hsenderMem : sender ∈ authors := by
    rw [← hv2]
    exact List.mem_map_of_mem (List.mem_of_getElem? hv1)
  have hauth : authors.length = s0.avn.validators.length := by simp [authors]
  have hlen : (authors.erase sender).length = s0.avn.validators.length - 1 := by rw [List.length_erase_of_mem hsenderMem, hauth]
  have key := C88_request_completes env c ⟨hmost, hleast, hq0, by simp [c], hok⟩ sv { s2 with log := s2.log ++ [.accepted (.send ⟨id, name, params, caller⟩)] }
    _ _ ⟨hact, rfl, rfl, rfl, rfl, by simp, by simp, hvals, by simp only [hblk]; exact Nat.le_refl _, Nat.le_refl _, hq0, rfl⟩
    (authors.map .work) (authors.map .work) (authors.map .work)
    (by
      intro e he
      have he : e ∈ (authors ++ authors ++ authors).map Ev.work := by simpa [or_assoc] using he
      obtain ⟨a, ha, rfl⟩ := List.mem_map.1 he
      have ha : a ∈ authors := by simpa using ha
      exact ⟨isValidator_iff.2 ha, hhon c rfl a ha⟩)
    (authors.erase sender) (by rw [workers_work]; exact List.erase_subset) (hnd.erase _) (fun hm => (List.Nodup.mem_erase_iff hnd).1 hm |>.1 rfl)
    (by rw [hlen]; show Avn.requiredFor s0.avn.validators.length ≤ _; unfold Avn.requiredFor; omega)
    (by rw [workers_work]; exact hsenderMem)
    (authors.erase sender) (by rw [workers_work]; exact List.erase_subset) (hnd.erase _) (fun hm => (List.Nodup.mem_erase_iff hnd).1 hm |>.1 rfl)
    (by simp [c])
    (by rw [hlen, hq]; unfold Avn.requiredFor; omega)
  rw [← List.map_append, ← List.map_append] at key
  exact key

/-! ### Lower proofs -/

/-- A lower proof request `r` with message `h` is in progress, `fin` being finalised. -/
structure LiveLower (vals : List Avn.Validator) (fin h : Nat) (r : LowerReq) (s : State W) (req : Active) : Prop where
  active : s.active = some req
  request : req.request = .lower r
  tx : req.txData = none
  hash : req.msgHash = h
  authors : s.avn.validators = vals
  block : s.block ≤ fin
  upd : req.lastUpdated ≤ fin
  few : req.confirmations.length < Avn.requiredForSupermajority vals.length

/-- Steps under which a lower proof in progress goes on: every unsigned call by anybody, new requests, time. -/
def LowerTolerated (vals : List Avn.Validator) (fin : Nat) : Step W → Prop
  | .removeActive => False
  | .setInstance .. => False
  | .external _ avn _ block _ => avn.validators = vals ∧ block ≤ fin
  | _ => True

/-- The proof was handed over. -/
def LowerDone (r : LowerReq) (s : State W) : Prop := ∃ confs, .lowerResult r.lowerId r.callerId (some (r.params, confs)) ∈ s.log

theorem lower_call {vals : List Avn.Validator} {fin h : Nat} {r : LowerReq} (hmost : Avn.requiredForSupermajority vals.length ≤ 100)
    (s : State W) (req : Active) (hl : LiveLower vals fin h r s req) (op : Step W) (ho : LowerTolerated vals fin op) :
    (∃ req', LiveLower vals fin h r (step env s op) req' ∧ req.confirmations ⊆ req'.confirmations ∧
      ∀ sig a, op = .confirm r.lowerId sig a → Avn.isValidator vals a = true → env.signer h sig = some a → sig ∈ req'.confirmations) ∨
    LowerDone r (step env s op) := by
  have kept : ∀ s' : State W, s'.active = s.active → s'.avn = s.avn → s'.block = s.block → LiveLower vals fin h r s' req := by
    intro s' e1 e2 e3
    exact ⟨by rw [e1]; exact hl.active, hl.request, hl.tx, hl.hash, by rw [e2]; exact hl.authors, by rw [e3]; exact hl.block, hl.upd, hl.few⟩
  have hsome : s.active.isSome = true := by rw [hl.active]; rfl
  cases op with
  | removeActive => exact absurd ho id
  | setInstance v i => exact absurd ho id
  | setTxId i => exact .inl ⟨req, kept _ rfl rfl rfl, fun _ h => h, by simp⟩
  | external w avn now block lifetime =>
    exact .inl ⟨req, ⟨hl.active, hl.request, hl.tx, hl.hash, ho.1, ho.2, hl.upd, hl.few⟩, fun _ h => h, by simp⟩
  | publish name params caller rb =>
    refine .inl ⟨req, ?_, fun _ h => h, by simp⟩
    have e : (step env s (.publish name params caller rb)).active = s.active ∧ (step env s (.publish name params caller rb)).avn = s.avn ∧
        (step env s (.publish name params caller rb)).block = s.block := by
      simp only [step, publish, enqueueOrSetUp, hsome, if_true, queueRequest]
      by_cases h1 : env.validUtf8 name = false
      · cases rb <;> simp [h1]
      by_cases h2 : name = []
      · subst h2; cases rb <;> simp [h1]
      by_cases h3 : name.length > 32
      · cases rb <;> simp [h1, h2, h3]
      by_cases h4 : paramsFit params = false
      · cases rb <;> simp [h1, h2, h3, h4]
      by_cases h5 : caller.length > 50
      · cases rb <;> simp [h1, h2, h3, h4, h5]
      by_cases h6 : s.queue.length < env.maxQueued
      · cases rb <;> simp [h1, h2, h3, h4, h5, h6]
      · cases rb <;> simp [h1, h2, h3, h4, h5, h6]
    exact kept _ e.1 e.2.1 e.2.2
  | lowerProof id params caller =>
    refine .inl ⟨req, ?_, fun _ h => h, by simp⟩
    have e : (step env s (.lowerProof id params caller)).active = s.active ∧ (step env s (.lowerProof id params caller)).avn = s.avn ∧
        (step env s (.lowerProof id params caller)).block = s.block := by
      simp only [step, generateLowerProof, enqueueOrSetUp, hsome, if_true, queueRequest]
      by_cases h1 : caller.length > 50
      · simp [h1]
      · by_cases h2 : s.queue.length < env.maxQueued
        · simp [h1, h2]
        · simp [h1, h2]
    exact kept _ e.1 e.2.1 e.2.2
  | ethTxHash id x a =>
    have e : step env s (.ethTxHash id x a) = s := by
      dsimp only [step]
      by_cases hv : Avn.isValidator s.avn.validators a = true
      · rw [if_pos hv]
        unfold addEthTxHash
        rw [hl.active]
        dsimp only
        by_cases h1 : req.request.idMatches id = false
        · rw [if_pos h1]; rfl
        · rw [if_neg h1, hl.tx]; rfl
      · rw [if_neg hv]
    exact .inl ⟨req, by rw [e]; exact hl, fun _ h => h, by simp⟩
  | corroborate id ok hv a rep =>
    have e : step env s (.corroborate id ok hv a rep) = s := by
      dsimp only [step]
      by_cases hv : Avn.isValidator s.avn.validators a = true
      · rw [if_pos hv]
        unfold addCorroboration
        rw [hl.active]
        dsimp only
        by_cases h1 : req.request.idMatches id = false
        · rw [if_pos h1]; rfl
        · rw [if_neg h1, hl.tx]; rfl
      · rw [if_neg hv]
    exact .inl ⟨req, by rw [e]; exact hl, fun _ h => h, by simp⟩
  | confirm id sig a =>
    by_cases hm : sig ∈ req.confirmations
    · have e : step env s (.confirm id sig a) = s := by
        dsimp only [step]
        by_cases hv : Avn.isValidator s.avn.validators a = true
        · rw [if_pos hv]
          unfold addConfirmation
          rw [hl.active]
          dsimp only
          by_cases h1 : req.request.idMatches id = false
          · rw [if_pos h1]; rfl
          rw [if_neg h1]
          by_cases h2 : enoughConfirmations s req.request req.confirmations.length = true
          · rw [if_pos h2]; rfl
          rw [if_neg h2]
          by_cases h3 : isSender req a = true
          · rw [if_pos h3]; rfl
          rw [if_neg h3]
          by_cases h4 : verifySignature env s req.msgHash a sig = false
          · rw [if_pos h4]; rfl
          rw [if_neg h4, if_pos hm]; rfl
        · rw [if_neg hv]
      refine .inl ⟨req, by rw [e]; exact hl, fun _ h => h, ?_⟩
      intro sig' a' he _ _
      injection he with _ he _
      rw [← he]; exact hm
    · by_cases hg : id = r.lowerId ∧ Avn.isValidator vals a = true ∧ env.signer h sig = some a
      · obtain ⟨g1, g2, g3⟩ := hg
        have hvs : Avn.isValidator s.avn.validators a = true := by rw [hl.authors]; exact g2
        have e : step env s (.confirm id sig a) =
            if Avn.requiredForSupermajority vals.length ≤ (req.confirmations ++ [sig]).length then completeLower env s r (req.confirmations ++ [sig])
            else { s with active := some { req with confirmations := req.confirmations ++ [sig], lastUpdated := s.block } } := by
          dsimp only [step]
          rw [if_pos hvs]
          unfold addConfirmation
          rw [hl.active]
          dsimp only
          have hen : enoughConfirmations s req.request req.confirmations.length = false := by
            rw [hl.request]; simp only [enoughConfirmations, nAuthors, hl.authors]; simpa using hl.few
          have hfew := hl.few
          rw [if_neg (by rw [hl.request]; simp [Request.idMatches, g1]), if_neg (by rw [hen]; simp), if_neg (by simp [isSender, hl.request]),
            if_neg (by simp [verifySignature, hvs, hl.hash, g3]), if_neg hm, if_neg (by unfold confirmationsLimit; omega)]
          simp only [hl.request, enoughConfirmations, nAuthors, hl.authors, decide_eq_true_eq]
          by_cases hq : Avn.requiredForSupermajority vals.length ≤ (req.confirmations ++ [sig]).length
          · rw [if_pos hq, if_pos hq]; rfl
          · rw [if_neg hq, if_neg hq]; simp [commit, hl.request]
        rw [e]
        by_cases hq : Avn.requiredForSupermajority vals.length ≤ (req.confirmations ++ [sig]).length
        · rw [if_pos hq]
          refine .inr ⟨req.confirmations ++ [sig], ?_⟩
          unfold completeLower
          obtain ⟨dr, hlog, _⟩ := processNext_finished env s { s with
            world := (env.onLower s.world r.lowerId r.callerId (some (r.params, req.confirmations ++ [sig]))).1
            log := s.log ++ [.lowerResult r.lowerId r.callerId (some (r.params, req.confirmations ++ [sig]))] }
            (.lowerResult r.lowerId r.callerId (some (r.params, req.confirmations ++ [sig]))) rfl rfl rfl
          rw [hlog]
          simp
        · rw [if_neg hq]
          refine .inl ⟨_, ⟨rfl, hl.request, hl.tx, hl.hash, hl.authors, hl.block, hl.block, by simpa using hq⟩, fun _ h => List.mem_append_left _ h, ?_⟩
          intro sig' a' he _ _
          injection he with _ he _
          rw [← he]; simp
      · have e : step env s (.confirm id sig a) = s := by
          dsimp only [step]
          by_cases hv : Avn.isValidator s.avn.validators a = true
          · rw [if_pos hv]
            unfold addConfirmation
            rw [hl.active]
            dsimp only
            by_cases h1 : req.request.idMatches id = false
            · rw [if_pos h1]; rfl
            rw [if_neg h1]
            by_cases h2 : enoughConfirmations s req.request req.confirmations.length = true
            · rw [if_pos h2]; rfl
            rw [if_neg h2]
            by_cases h3 : isSender req a = true
            · rw [if_pos h3]; rfl
            rw [if_neg h3]
            by_cases h4 : verifySignature env s req.msgHash a sig = false
            · rw [if_pos h4]; rfl
            · exfalso
              refine hg ⟨?_, by rw [← hl.authors]; exact hv, ?_⟩
              · rw [hl.request] at h1; simp [Request.idMatches] at h1; exact h1.symm
              · simp only [verifySignature, hl.hash, Bool.not_eq_false, Bool.and_eq_true, beq_iff_eq] at h4; exact h4.2
          · rw [if_neg hv]
        refine .inl ⟨req, by rw [e]; exact hl, fun _ h => h, ?_⟩
        intro sig' a' he hv hs
        injection he with he1 he2 he3
        subst he2; subst he3
        exact absurd ⟨he1, hv, hs⟩ hg

/-- An author whose node signs the message with its own key. -/
def Signs (env : Env W) (sv : Nat → Service) (h a : Nat) : Prop := ∃ sig, (sv a).sign h = some sig ∧ env.signer h sig = some a

/-- A schedule for a lower proof: the workers that run are those of authors whose nodes sign; anything tolerated may come between. -/
def LowerFair (vals : List Avn.Validator) (fin h : Nat) (sv : Nat → Service) (l : List (Ev W)) : Prop :=
  ∀ e ∈ l, match e with
    | .work a => Avn.isValidator vals a = true ∧ Signs env sv h a
    | .other op => LowerTolerated vals fin op

theorem lower_all {vals : List Avn.Validator} {fin h : Nat} {r : LowerReq} (hmost : Avn.requiredForSupermajority vals.length ≤ 100)
    (sv : Nat → Service) (l : List (Ev W)) (hfair : LowerFair env vals fin h sv l) (s : State W) (req : Active) (hl : LiveLower vals fin h r s req) :
    (∃ req', LiveLower vals fin h r (playAll env sv fin s l) req' ∧ req.confirmations ⊆ req'.confirmations ∧
      ∀ a ∈ workers l, a ∈ req'.confirmations.filterMap (env.signer h)) ∨ LowerDone r (playAll env sv fin s l) := by
  induction l generalizing s req with
  | nil => exact .inl ⟨req, hl, fun _ h => h, by simp [workers]⟩
  | cons e l ih =>
    rw [playAll_cons]
    have hrest : LowerFair env vals fin h sv l := fun x hx => hfair x (List.mem_cons_of_mem _ hx)
    have hhead := hfair e (List.mem_cons_self ..)
    have done : ∀ s' : State W, LowerDone r s' → LowerDone r (playAll env sv fin s' l) :=
      fun s' ⟨confs, hc⟩ => ⟨confs, playAll_log env sv fin l s' _ hc⟩
    cases e with
    | other op =>
      rcases lower_call env hmost s req hl op hhead with ⟨r1, h1, h2, _⟩ | h
      · rcases ih hrest _ r1 h1 with ⟨r2, h3, h4, h5⟩ | h
        · exact .inl ⟨r2, h3, fun _ m => h4 (h2 m), h5⟩
        · exact .inr h
      · exact .inr (done _ h)
    | work a =>
      obtain ⟨hv, sig, hsig, hrec⟩ := hhead
      have hw : work (sv a) fin s a = if sig ∈ req.confirmations then none else some (.confirm r.lowerId sig a) := by
        unfold work
        rw [hl.active]
        dsimp only
        rw [if_neg (by have := hl.upd; omega), hl.request]
        dsimp only
        rw [if_neg (by simp only [enoughConfirmations, nAuthors, hl.authors]; simpa using hl.few)]
        unfold workConfirm
        rw [hl.hash, hsig]
      have hstep : (∃ req', LiveLower vals fin h r (play env sv fin s (.work a)) req' ∧ req.confirmations ⊆ req'.confirmations ∧
          sig ∈ req'.confirmations) ∨ LowerDone r (play env sv fin s (.work a)) := by
        dsimp only [play]
        rw [hw]
        by_cases hm : sig ∈ req.confirmations
        · rw [if_pos hm]; exact .inl ⟨req, hl, fun _ h => h, hm⟩
        · rw [if_neg hm]
          rcases lower_call env hmost s req hl (.confirm r.lowerId sig a) trivial with ⟨r1, h1, h2, h3⟩ | h
          · exact .inl ⟨r1, h1, h2, h3 sig a rfl hv hrec⟩
          · exact .inr h
      rcases hstep with ⟨r1, h1, h2, h3⟩ | h
      · rcases ih hrest _ r1 h1 with ⟨r2, h4, h5, h6⟩ | h
        · refine .inl ⟨r2, h4, fun _ m => h5 (h2 m), ?_⟩
          intro x hx
          rcases List.mem_cons.1 hx with e | hx
          · rw [e]; exact List.mem_filterMap.2 ⟨sig, h5 h3, hrec⟩
          · exact h6 x hx
        · exact .inr h
      · exact .inr (done _ h)

/-- **C88, a supermajority completes a lower proof.** A lower proof request is in progress, its message being `h` and the supermajority at most 100. Whatever
anybody else submits (`LowerTolerated`: any unsigned call of any author, any new requests, any time steps): once the workers of a
supermajority of authors have run, the proof was handed to the originating pallet. -/
theorem C88_lower_completes (vals : List Avn.Validator) (fin h : Nat) (r : LowerReq) (hmost : Avn.requiredForSupermajority vals.length ≤ 100)
    (sv : Nat → Service) (s : State W) (req : Active) (hl : LiveLower vals fin h r s req) (l : List (Ev W)) (hfair : LowerFair env vals fin h sv l)
    (signers : List Nat) (hs1 : signers ⊆ workers l) (hs2 : signers.Nodup) (hs3 : Avn.requiredForSupermajority vals.length ≤ signers.length) :
    ∃ confs, .lowerResult r.lowerId r.callerId (some (r.params, confs)) ∈ (playAll env sv fin s l).log := by
  rcases lower_all env hmost sv l hfair s req hl with ⟨r1, h1, _, h2⟩ | h
  · exfalso
    have hsub : signers ⊆ r1.confirmations.filterMap (env.signer h) := fun a ha => h2 a (hs1 ha)
    have := (hs2.subperm hsub).length_le
    have := List.length_filterMap_le (env.signer h) r1.confirmations
    have := h1.few
    omega
  · exact h

/-- **C88, a lone author is stuck.** With a single author nothing an author submits ever completes the request in progress or changes the queue, be it a lower proof (the
supermajority of one is zero, so confirmations are never taken) or a transaction (nobody but the sender could corroborate it): every request
behind it waits until an administrator removes it. -/
theorem C88_single_author_stuck (s : State W) (v : Avn.Validator) (hv : s.avn.validators = [v]) (req : Active) (hact : s.active = some req)
    (hsend : ∀ d, req.txData = some d → d.sender = v.account) (htx : ∀ r, req.request = .lower r → req.txData = none)
    (op : Step W) (hop : (∃ i g a, op = .confirm i g a) ∨ (∃ i x a, op = .ethTxHash i x a) ∨ ∃ i o w a n, op = .corroborate i o w a n) :
    (step env s op).log = s.log ∧ (step env s op).queue = s.queue ∧ ∃ req', (step env s op).active = some req' ∧ req'.request = req.request := by
  have hval : ∀ a, Avn.isValidator s.avn.validators a = true → a = v.account := by
    intro a ha; rw [hv] at ha; simp [Avn.isValidator] at ha; exact ha.symm
  have hid : s.log = s.log ∧ s.queue = s.queue ∧ ∃ req', s.active = some req' ∧ req'.request = req.request := ⟨rfl, rfl, req, hact, rfl⟩
  rcases hop with ⟨i, g, a, rfl⟩ | ⟨i, x, a, rfl⟩ | ⟨i, o, w, a, n, rfl⟩
  · dsimp only [step]
    by_cases ha : Avn.isValidator s.avn.validators a = true
    · rw [if_pos ha]
      unfold addConfirmation
      rw [hact]
      dsimp only
      have hen : enoughConfirmations s req.request req.confirmations.length = true := by
        cases req.request <;> simp [enoughConfirmations, nAuthors, hv, Avn.requiredFor, Avn.requiredForSupermajority]
      by_cases h1 : req.request.idMatches i = false
      · rw [if_pos h1]; exact hid
      · rw [if_neg h1, if_pos hen]; exact hid
    · rw [if_neg ha]; exact hid
  · dsimp only [step]
    by_cases ha : Avn.isValidator s.avn.validators a = true
    · rw [if_pos ha]
      unfold addEthTxHash
      rw [hact]
      dsimp only
      by_cases h1 : req.request.idMatches i = false
      · rw [if_pos h1]; exact hid
      rw [if_neg h1]
      cases hd : req.txData with
      | none => exact hid
      | some d =>
        dsimp only
        by_cases h2 : d.ethTxHash ≠ 0
        · rw [if_pos h2]; exact hid
        rw [if_neg h2]
        by_cases h3 : d.sender ≠ a
        · rw [if_pos h3]; exact hid
        · rw [if_neg h3]; exact ⟨rfl, rfl, _, rfl, rfl⟩
    · rw [if_neg ha]; exact hid
  · dsimp only [step]
    by_cases ha : Avn.isValidator s.avn.validators a = true
    · rw [if_pos ha]
      unfold addCorroboration
      rw [hact]
      dsimp only
      by_cases h1 : req.request.idMatches i = false
      · rw [if_pos h1]; exact hid
      rw [if_neg h1]
      cases hd : req.txData with
      | none => exact hid
      | some d =>
        dsimp only
        by_cases h2 : n ≠ d.replay
        · rw [if_pos h2]; exact hid
        rw [if_neg h2, if_pos (by rw [hsend d hd]; exact hval a ha)]; exact hid
    · rw [if_neg ha]; exact hid

/-! ### Examples -/

/-- Nodes of the example authors: author `a` signs `10 a`, sending yields hash 99, and Ethereum says the transaction succeeded. -/
def exService (a : Nat) : Service where
  sign := fun _ => some (10 * a)
  send := fun _ => some 99
  report := fun _ => some (some true, some true)
  locked := fun _ => false

/-- Five authors. -/
def ex5 : State Nat := initial 0 { validators := [⟨1, 1⟩, ⟨2, 2⟩, ⟨3, 3⟩, ⟨4, 4⟩, ⟨5, 5⟩], primaryIndex := 0 } 5

/-- The situation after publication, author 4 of five misbehaving. -/
def exCtx : Ctx := ⟨ex5.avn.validators, [4], 0, ⟨5, [65], [], [1]⟩, 7, 2⟩

example : Fits exEnv exCtx := ⟨by decide, by decide, by decide, by decide, fun _ => rfl⟩

example : ∃ req d, Live exCtx (step exEnv ex5 (.publish [65] [] [1] true)) req d :=
  ⟨_, _, rfl, rfl, rfl, rfl, rfl, by decide, by decide, rfl, by decide, by decide, by decide, by decide⟩

/-- Author 4 signs, reports failure and tries to set the hash; still the request succeeds. -/
example :
    let s := step exEnv ex5 (.publish [65] [] [1] true)
    let bad : List (Ev Nat) := [.other (.confirm 5 40 4), .other (.corroborate 5 false false 4 0), .other (.ethTxHash 5 7 4), .other (.publish [66] [] [9] true)]
    let s1 := playAll exEnv exService 0 s (bad ++ [.work 1, .work 3] ++ [.work 2] ++ bad ++ [.work 1, .work 3])
    (s.active.bind (·.txData)).map (·.sender) = some 2 ∧ s1.log = [.accepted (.send ⟨5, [65], [], [1]⟩), .accepted (.send ⟨6, [66], [], [9]⟩),
      .accepted (.send ⟨7, [66], [], [9]⟩), .result 5 [1] true] := by decide +kernel

example (c : Ctx) (a : Nat) : Honest exEnv c exService a := by
  refine ⟨⟨10 * a, rfl, ?_⟩, fun _ _ => ⟨99, by decide, rfl⟩, rfl, fun _ _ => ⟨some true, rfl⟩⟩
  simp [exEnv]

/-- A lower proof is completed by two of four authors. -/
example : (playAll exEnv exService 0 (step exEnv ex0 (.lowerProof 9 3 [3])) [.work 1, .work 1, .other (.confirm 9 41 4)]).log =
    [.accepted (.lower ⟨9, 3, [3]⟩), .lowerResult 9 [3] (some (3, [10, 41]))] := by decide +kernel

/-- A lone author: its lower proof is never completed. -/
example : (playAll exEnv exService 0 (step exEnv (initial 0 { validators := [⟨1, 1⟩], primaryIndex := 0 } 5) (.lowerProof 9 3 [3])) [.work 1, .other (.confirm 9 10 1)]).log =
    [.accepted (.lower ⟨9, 3, [3]⟩)] := by decide +kernel

end Verif.BridgeTx
