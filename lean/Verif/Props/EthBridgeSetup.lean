import Verif.Props.EthBridgeTx

/-!
# Properties C79 and C80: what is set up for Ethereum, and how outcomes are delivered and recorded
-/

namespace Verif.BridgeTx

open Verif (ascii)

variable {W : Type} (env : Env W)

/-! ## Specification -/

/-- `avn'` is `avn` after the next author in turn, `sender`, was picked. With fewer than 256 authors and the turn below
255 that is the author after the one in turn, cyclically. -/
def NextSender (avn : Avn.State) (sender : Nat) (avn' : Avn.State) : Prop :=
  avn'.validators = avn.validators ∧ (∃ v, avn.validators[avn'.primaryIndex]? = some v ∧ v.account = sender) ∧
    (avn.validators.length < 256 → avn.primaryIndex < 255 →
      avn'.primaryIndex = (avn.primaryIndex + 1) % avn.validators.length)

/-- In `s'`, send request `r` was just set up from `s` as attempt `replay`: the authors are asked to confirm the hash of
its function name, its parameters, a deadline `lifetime` seconds from now and its transaction id, under the current bridge
instance; the sender is the next in turn; nothing is confirmed, sent or corroborated yet. -/
def Prepared (s s' : State W) (r : SendReq) (replay : Nat) : Prop :=
  ∃ h sender,
    let params := r.params ++ [(ascii "uint256", ascii (toString (s.now + s.lifetime))), (ascii "uint32", ascii (toString r.txId))]
    env.fnHash r.name params s'.instanceId = some h ∧ NextSender s.avn sender s'.avn ∧
    s'.active = some {
      request := .send r, msgHash := h, confirmations := [], lastUpdated := s.block
      txData := some {
        params := params, sender := sender, expiry := s.now + s.lifetime, ethTxHash := 0
        success := [], failure := [], validHash := [], invalidHash := [], replay := replay } }

/-- In `s'`, a lower proof request was just set up: the authors confirm the hash of its parameters under the current
instance, and nobody takes a turn as sender. -/
def PreparedLower (s s' : State W) (r : LowerReq) : Prop :=
  s'.avn = s.avn ∧ ∃ h, env.lowerHash r.params s'.instanceId = some h ∧
    s'.active = some { request := .lower r, msgHash := h, confirmations := [], txData := none, lastUpdated := s.block }

/-- The active request stays what it is: same request, same message, and for a send the same parameters, sender, deadline
and attempt. -/
def Kept (s s' : State W) : Prop :=
  s'.avn = s.avn ∧ ((s.active = none ∧ s'.active = none) ∨ ∃ a a', s.active = some a ∧ s'.active = some a' ∧
    a'.request = a.request ∧ a'.msgHash = a.msgHash ∧
    a'.txData.map (fun d => (d.params, d.sender, d.expiry, d.replay)) =
      a.txData.map (fun d => (d.params, d.sender, d.expiry, d.replay)))

/-- What the notifications in a log do to the rest of the runtime, in order. -/
def applyNotifications : W → List Obs → W
  | w, [] => w
  | w, .result id c ok :: l => applyNotifications (env.onResult w id c ok).1 l
  | w, .lowerResult id c p :: l => applyNotifications (env.onLower w id c p).1 l
  | w, .accepted _ :: l => applyNotifications w l

/-! ## Proofs -/

theorem advancePrimary_next {avn avn' : Avn.State} {sender : Nat} (h : Avn.advancePrimary avn = .ok (sender, avn')) :
    NextSender avn sender avn' := by
  unfold Avn.advancePrimary at h
  by_cases h1 : avn.validators = []
  · rw [if_pos h1] at h; simp at h
  rw [if_neg h1] at h
  dsimp only at h
  by_cases h2 : avn.validators.length % 256 = 0
  · rw [if_pos h2] at h; simp at h
  rw [if_neg h2] at h
  cases h3 : avn.validators[(min (avn.primaryIndex + 1) 255) % (avn.validators.length % 256)]? with
  | none => rw [h3] at h; simp at h
  | some v =>
    rw [h3] at h
    simp only [Except.ok.injEq, Prod.mk.injEq] at h
    obtain ⟨rfl, rfl⟩ := h
    refine ⟨rfl, ⟨v, h3, rfl⟩, fun hn hp => ?_⟩
    simp only
    rw [Nat.mod_eq_of_lt hn]
    congr 1
    omega

theorem setUpTx_prepared {s s' : State W} {r : SendReq} {n : Nat} (h : setUpTx env s r n = .ok s') :
    Prepared env s s' r n ∧ s'.instanceId = s.instanceId ∧ s'.now = s.now ∧ s'.lifetime = s.lifetime ∧
      s'.block = s.block ∧ s'.world = s.world ∧ s'.log = s.log ∧ s'.settled = s.settled ∧ s'.queue = s.queue := by
  unfold setUpTx at h
  dsimp only at h
  cases h1 : extendParams r (s.now + s.lifetime) with
  | none => rw [h1] at h; simp at h
  | some ps =>
    rw [h1] at h; dsimp only at h
    cases h2 : env.fnHash r.name ps s.instanceId with
    | none => rw [h2] at h; simp at h
    | some hsh =>
      rw [h2] at h; dsimp only at h
      cases h3 : Avn.advancePrimary s.avn with
      | error e => rw [h3] at h; simp at h
      | ok p =>
        obtain ⟨sender, avn⟩ := p
        rw [h3] at h; dsimp only at h
        injection h with h
        subst h
        have hps : ps = r.params ++
            [(ascii "uint256", ascii (toString (s.now + s.lifetime))), (ascii "uint32", ascii (toString r.txId))] := by
          unfold extendParams at h1
          dsimp only at h1
          by_cases hc : paramsFit (r.params ++
            [(ascii "uint256", ascii (toString (s.now + s.lifetime))), (ascii "uint32", ascii (toString r.txId))]) = true
          · rw [if_pos hc] at h1; exact (Option.some.inj h1).symm
          · rw [if_neg hc] at h1; simp at h1
        subst hps
        exact ⟨⟨hsh, sender, h2, advancePrimary_next h3, rfl⟩, rfl, rfl, rfl, rfl, rfl, rfl, rfl, rfl⟩

theorem setUpLower_prepared {s s' : State W} {r : LowerReq} (h : setUpLower env s r = .ok s') :
    PreparedLower env s s' r ∧ s'.instanceId = s.instanceId ∧ s'.now = s.now ∧ s'.lifetime = s.lifetime ∧
      s'.block = s.block ∧ s'.world = s.world ∧ s'.log = s.log ∧ s'.settled = s.settled ∧ s'.queue = s.queue := by
  unfold setUpLower at h
  cases h2 : env.lowerHash r.params s.instanceId with
  | none => rw [h2] at h; simp at h
  | some hsh =>
    rw [h2] at h; dsimp only at h
    injection h with h
    subst h
    exact ⟨⟨rfl, hsh, h2, rfl⟩, rfl, rfl, rfl, rfl, rfl, rfl, rfl, rfl⟩

/-- What one step can do to the active request. -/
def SetupView (s s' : State W) : Prop :=
  Kept s s' ∨ (s'.active = none ∧ s'.avn = s.avn) ∨ (∃ r, PreparedLower env s s' r) ∨ ∃ r n, Prepared env s s' r n

theorem setUp_view {s s' : State W} {r : Request} (h : setUp env s r = .ok s') :
    ((∃ q, r = .lower q ∧ PreparedLower env s s' q) ∨ ∃ q, r = .send q ∧ Prepared env s s' q 0) ∧
      s'.instanceId = s.instanceId ∧ s'.now = s.now ∧ s'.lifetime = s.lifetime ∧
      s'.block = s.block ∧ s'.world = s.world ∧ s'.log = s.log ∧ s'.settled = s.settled ∧ s'.queue = s.queue := by
  cases r with
  | send r => obtain ⟨h1, h2⟩ := setUpTx_prepared env h; exact ⟨.inr ⟨r, rfl, h1⟩, h2⟩
  | lower r => obtain ⟨h1, h2⟩ := setUpLower_prepared env h; exact ⟨.inl ⟨r, rfl, h1⟩, h2⟩

theorem applyNotifications_append (w : W) (a b : List Obs) :
    applyNotifications env w (a ++ b) = applyNotifications env (applyNotifications env w a) b := by
  induction a generalizing w with
  | nil => rfl
  | cons o a ih => cases o <;> simp [applyNotifications, ih]

/-- The notifications logged between two states were delivered, in order, and nothing else happened to the runtime. -/
def Delivered (s s' : State W) : Prop :=
  ∃ new, s'.log = s.log ++ new ∧ s'.world = applyNotifications env s.world new

theorem Delivered.refl (s : State W) : Delivered env s s := ⟨[], by simp, rfl⟩
theorem Delivered.trans {s t u : State W} (h1 : Delivered env s t) (h2 : Delivered env t u) : Delivered env s u := by
  obtain ⟨a, la, wa⟩ := h1
  obtain ⟨b, lb, wb⟩ := h2
  exact ⟨a ++ b, by simp [lb, la], by rw [applyNotifications_append, ← wa, wb]⟩

theorem notifyFailed_delivered (s : State W) (r : Request) : Delivered env s (notifyFailed env s r) := by
  cases r with
  | send r => exact ⟨_, rfl, rfl⟩
  | lower r => exact ⟨_, rfl, rfl⟩

theorem processQueue_full (q : List Request) (s : State W) (ha : s.active = none) :
    ((processQueue env s q).active = none ∧ (processQueue env s q).avn = s.avn ∨
      (∃ r, PreparedLower env s (processQueue env s q) r) ∨ ∃ r, Prepared env s (processQueue env s q) r 0) ∧
    Delivered env s (processQueue env s q) ∧ (processQueue env s q).settled = s.settled ∧
      (processQueue env s q).instanceId = s.instanceId := by
  induction q generalizing s with
  | nil => exact ⟨.inl ⟨ha, rfl⟩, ⟨[], by simp [processQueue], rfl⟩, rfl, rfl⟩
  | cons r rest ih =>
    unfold processQueue
    cases hs : setUp env { s with queue := rest } r with
    | ok s' =>
      dsimp only
      obtain ⟨hv, h1, h2, h3, h4, h5, h6, h7, h8⟩ := setUp_view env hs
      refine ⟨?_, ⟨[], by simpa using h6, h5⟩, h7, h1⟩
      rcases hv with ⟨q, -, hp⟩ | ⟨q, -, hp⟩
      · exact .inr (.inl ⟨q, hp⟩)
      · exact .inr (.inr ⟨q, hp⟩)
    | error e =>
      dsimp only
      have hf : (notifyFailed env s r).active = none ∧ (notifyFailed env s r).avn = s.avn ∧
          (notifyFailed env s r).now = s.now ∧ (notifyFailed env s r).lifetime = s.lifetime ∧
          (notifyFailed env s r).block = s.block ∧ (notifyFailed env s r).settled = s.settled ∧
          (notifyFailed env s r).instanceId = s.instanceId := by
        cases r <;> exact ⟨ha, rfl, rfl, rfl, rfl, rfl, rfl⟩
      obtain ⟨f1, f2, f3, f4, f5, f6, f7⟩ := hf
      obtain ⟨i1, i2, i3, i4⟩ := ih (notifyFailed env s r) f1
      refine ⟨?_, (notifyFailed_delivered env s r).trans env i2, i3.trans f6, i4.trans f7⟩
      rcases i1 with ⟨g1, g2⟩ | ⟨q, g1, g2⟩ | ⟨q, h, x, g1, g2, g3⟩
      · exact .inl ⟨g1, g2.trans f2⟩
      · rw [f5] at g2; exact .inr (.inl ⟨q, g1.trans f2, g2⟩)
      · rw [f3, f4] at g1; rw [f2] at g2; rw [f3, f4, f5] at g3
        exact .inr (.inr ⟨q, h, x, g1, g2, g3⟩)

theorem kept_refl (s : State W) : Kept s s := by
  refine ⟨rfl, ?_⟩
  cases h : s.active with
  | none => exact .inl ⟨rfl, rfl⟩
  | some a => exact .inr ⟨a, a, rfl, rfl, rfl, rfl, rfl⟩

/-- The three views of a step that concern these properties. -/
structure StepFacts (s s' : State W) : Prop where
  setup : SetupView env s s'
  delivered : Delivered env s s'

theorem processNext_facts (s mid : State W) (h1 : mid.avn = s.avn) (h2 : mid.now = s.now) (h3 : mid.lifetime = s.lifetime)
    (h4 : mid.block = s.block) (hd : Delivered env s mid) :
    StepFacts env s (processNext env mid) ∧ (processNext env mid).settled = mid.settled ∧
      (processNext env mid).instanceId = mid.instanceId := by
  obtain ⟨i1, i2, i3, i4⟩ := processQueue_full env mid.queue { mid with active := none } rfl
  refine ⟨⟨?_, hd.trans env i2⟩, i3, i4⟩
  rcases i1 with ⟨g1, g2⟩ | ⟨q, g1, g2⟩ | ⟨q, h, x, g1, g2, g3⟩
  · exact .inr (.inl ⟨g1, g2.trans h1⟩)
  · obtain ⟨h, k1, k2⟩ := g2
    have k2 : (processNext env mid).active = some { request := .lower q, msgHash := h, confirmations := [], txData := none, lastUpdated := mid.block } := k2
    rw [h4] at k2
    exact .inr (.inr (.inl ⟨q, g1.trans h1, h, k1, k2⟩))
  · have g1 : env.fnHash q.name (q.params ++ [(ascii "uint256", ascii (toString (mid.now + mid.lifetime))), (ascii "uint32", ascii (toString q.txId))]) (processNext env mid).instanceId = some h := g1
    have g2 : NextSender mid.avn x (processNext env mid).avn := g2
    have g3 : (processNext env mid).active = some { request := .send q, msgHash := h, confirmations := [], lastUpdated := mid.block, txData := some { params := q.params ++ [(ascii "uint256", ascii (toString (mid.now + mid.lifetime))), (ascii "uint32", ascii (toString q.txId))], sender := x, expiry := mid.now + mid.lifetime, ethTxHash := 0, success := [], failure := [], validHash := [], invalidHash := [], replay := 0 } } := g3
    rw [h2, h3] at g1 g3
    rw [h1] at g2
    rw [h4] at g3
    exact .inr (.inr (.inr ⟨q, 0, h, x, g1, g2, g3⟩))

theorem facts_refl (s : State W) : StepFacts env s s := ⟨.inl (kept_refl s), Delivered.refl env s⟩

/-- A change of the active request's collected answers only. -/
theorem facts_kept (s s' : State W) (hk : Kept s s') (hl : s'.log = s.log) (hw : s'.world = s.world) :
    StepFacts env s s' := ⟨.inl hk, ⟨[], by simp [hl], hw⟩⟩

theorem enqueue_facts (s s1 s2 : State W) (r : Request) (h1 : s1 = { s with nextTxId := s1.nextTxId })
    (h : enqueueOrSetUp env s1 r = .ok s2) : StepFacts env s { s2 with log := s2.log ++ [.accepted r] } := by
  unfold enqueueOrSetUp at h
  by_cases ha : s1.active.isSome = true
  · rw [if_pos ha] at h
    unfold queueRequest at h
    by_cases hl : s1.queue.length < env.maxQueued
    · rw [if_pos hl] at h
      injection h with h
      subst h
      refine ⟨.inl ?_, ⟨[.accepted r], ?_, ?_⟩⟩
      · have := kept_refl s
        rw [h1]; exact this
      · rw [h1]
      · rw [h1]; rfl
    · rw [if_neg hl] at h; simp at h
  · rw [if_neg ha] at h
    obtain ⟨hv, e1, e2, e3, e4, e5, e6, e7, e8⟩ := setUp_view env h
    refine ⟨?_, ⟨[.accepted r], ?_, ?_⟩⟩
    · rcases hv with ⟨q, -, g1, g2⟩ | ⟨q, -, hh, x, g1, g2, g3⟩
      · rw [h1] at g1 g2
        exact .inr (.inr (.inl ⟨q, g1, g2⟩))
      · rw [h1] at g1 g2 g3
        exact .inr (.inr (.inr ⟨q, 0, hh, x, g1, g2, g3⟩))
    · simp only [e6]; rw [h1]
    · simp only [e5]; rw [h1]; rfl

theorem addCorr_core (d : TxData) (ok hv : Bool) (a : Nat) :
    ((addCorr d ok hv a).params, (addCorr d ok hv a).sender, (addCorr d ok hv a).expiry, (addCorr d ok hv a).replay) =
      (d.params, d.sender, d.expiry, d.replay) := by
  cases ok <;> cases hv <;> rfl

theorem step_facts (s : State W) (op : Step W)
    (hx : ∀ w avn now block lifetime, op ≠ .external w avn now block lifetime) :
    StepFacts env s (step env s op) := by
  have hid := facts_refl env s
  cases op with
  | publish name params caller rb =>
    have hinc : StepFacts env s { s with nextTxId := wrapInc32 s.nextTxId } :=
      facts_kept env s _ (kept_refl s) rfl rfl
    have hboth : StepFacts env s (if rb then s else { s with nextTxId := wrapInc32 s.nextTxId }) := by
      cases rb
      · exact hinc
      · exact hid
    simp only [step, publish]
    by_cases c1 : env.validUtf8 name = false
    · simp only [c1, if_true]; cases rb <;> exact hid
    simp only [c1, if_false]
    by_cases c2 : name = []
    · simp only [c2, if_true]; cases rb <;> exact hid
    simp only [c2, if_false]
    by_cases c3 : name.length > 32
    · simp only [c3, if_true]; exact hboth
    simp only [c3, if_false]
    by_cases c4 : paramsFit params = false
    · simp only [c4, if_true]; exact hboth
    simp only [c4, if_false]
    by_cases c5 : caller.length > 50
    · simp only [c5, if_true]; exact hboth
    simp only [c5, if_false]
    cases h : enqueueOrSetUp env { s with nextTxId := wrapInc32 s.nextTxId }
      (.send { txId := s.nextTxId, name := name, params := params, callerId := caller }) with
    | error e => simp only; exact hboth
    | ok s2 => simp only; exact enqueue_facts env s _ s2 _ rfl h
  | lowerProof id params caller =>
    simp only [step, generateLowerProof]
    by_cases c5 : caller.length > 50
    · simp only [c5, if_true]; exact hid
    simp only [c5, if_false]
    cases h : enqueueOrSetUp env s (.lower { lowerId := id, params := params, callerId := caller }) with
    | error e => exact hid
    | ok s2 => exact enqueue_facts env s s s2 _ rfl h
  | confirm id sig author =>
    simp only [step]
    by_cases hauth : Avn.isValidator s.avn.validators author = true
    swap
    · rw [if_neg hauth]; exact hid
    rw [if_pos hauth]
    unfold addConfirmation
    cases ha : s.active with
    | none => exact hid
    | some req =>
      dsimp only
      by_cases c1 : req.request.idMatches id = false
      · rw [if_pos c1]; exact hid
      rw [if_neg c1]
      by_cases c2 : enoughConfirmations s req.request req.confirmations.length = true
      · rw [if_pos c2]; exact hid
      rw [if_neg c2]
      by_cases c0 : isSender req author = true
      · rw [if_pos c0]; exact hid
      rw [if_neg c0]
      by_cases c3 : verifySignature env s req.msgHash author sig = false
      · rw [if_pos c3]; exact hid
      rw [if_neg c3]
      by_cases c4 : sig ∈ req.confirmations
      · rw [if_pos c4]; exact hid
      rw [if_neg c4]
      by_cases c5 : req.confirmations.length ≥ confirmationsLimit
      · rw [if_pos c5]; exact hid
      rw [if_neg c5]
      have hk : StepFacts env s
          { s with active := some { req with confirmations := req.confirmations ++ [sig], lastUpdated := s.block } } :=
        facts_kept env s _ ⟨rfl, .inr ⟨req, _, ha, rfl, rfl, rfl, rfl⟩⟩ rfl rfl
      cases hr : req.request with
      | send r => rw [hr] at hk; exact hk
      | lower r =>
        rw [hr] at hk
        dsimp only
        by_cases c6 : enoughConfirmations s (.lower r) (req.confirmations ++ [sig]).length = true
        · rw [if_pos c6]
          exact (processNext_facts env s { s with world := (env.onLower s.world r.lowerId r.callerId (some (r.params, req.confirmations ++ [sig]))).1, log := s.log ++ [.lowerResult r.lowerId r.callerId (some (r.params, req.confirmations ++ [sig]))] } rfl rfl rfl rfl
            ⟨[.lowerResult r.lowerId r.callerId (some (r.params, req.confirmations ++ [sig]))], rfl, rfl⟩).1
        · rw [if_neg c6]; exact hk
  | ethTxHash id h author =>
    simp only [step]
    by_cases hauth : Avn.isValidator s.avn.validators author = true
    swap
    · rw [if_neg hauth]; exact hid
    rw [if_pos hauth]
    unfold addEthTxHash
    cases ha : s.active with
    | none => exact hid
    | some req =>
      dsimp only
      by_cases c1 : req.request.idMatches id = false
      · rw [if_pos c1]; exact hid
      rw [if_neg c1]
      cases hd : req.txData with
      | none => exact hid
      | some d =>
        dsimp only
        by_cases c2 : d.ethTxHash ≠ 0
        · rw [if_pos c2]; exact hid
        rw [if_neg c2]
        by_cases c3 : d.sender ≠ author
        · rw [if_pos c3]; exact hid
        rw [if_neg c3]
        exact facts_kept env s _ ⟨rfl, .inr ⟨req, _, ha, rfl, rfl, rfl, by rw [hd]; rfl⟩⟩ rfl rfl
  | corroborate id ok hv author rep =>
    simp only [step]
    by_cases hauth : Avn.isValidator s.avn.validators author = true
    swap
    · rw [if_neg hauth]; exact hid
    rw [if_pos hauth]
    unfold addCorroboration
    cases ha : s.active with
    | none => exact hid
    | some req =>
      dsimp only
      by_cases c1 : req.request.idMatches id = false
      · rw [if_pos c1]; exact hid
      rw [if_neg c1]
      cases hd : req.txData with
      | none => exact hid
      | some d =>
        dsimp only
        by_cases c2 : rep ≠ d.replay
        · rw [if_pos c2]; exact hid
        rw [if_neg c2]
        by_cases c3 : author = d.sender
        · rw [if_pos c3]; exact hid
        rw [if_neg c3]
        by_cases c4 : author ∈ d.success ∨ author ∈ d.failure
        · rw [if_pos c4]; exact hid
        rw [if_neg c4]
        by_cases c5 : (if hv = true then d.validHash else d.invalidHash).length ≥ confirmationsLimit
        · rw [if_pos c5]; exact hid
        rw [if_neg c5]
        by_cases c6 : (if ok = true then d.success else d.failure).length ≥ confirmationsLimit
        · rw [if_pos c6]; exact hid
        rw [if_neg c6]
        by_cases c7 : enoughCorroborations s (if ok = true then (addCorr d ok hv author).success
          else (addCorr d ok hv author).failure).length = true
        · rw [if_pos c7]
          cases hr : req.request with
          | lower r => exact hid
          | send r =>
            dsimp only
            unfold finalizeState
            by_cases c8 : (!ok && enoughCorroborations s (addCorr d ok hv author).invalidHash.length) = true
            · rw [if_pos c8]
              cases hsu : setUpTx env s r (min ((addCorr d ok hv author).replay + 1) 65535) with
              | error e => exact hid
              | ok s' =>
                obtain ⟨hp, e1, e2, e3, e4, e5, e6, e7, e8⟩ := setUpTx_prepared env hsu
                exact ⟨.inr (.inr (.inr ⟨r, _, hp⟩)), ⟨[], by simp [commit, e6], e5⟩⟩
            · rw [if_neg c8]
              unfold completeTransaction
              dsimp only
              by_cases c9 : (env.onResult s.world r.txId r.callerId ok).2 = false
              · rw [if_pos c9]; exact hid
              · rw [if_neg c9]
                refine (processNext_facts env s { s with world := (env.onResult s.world r.txId r.callerId ok).1, settled := upd s.settled r.txId (some { name := r.name, params := (addCorr d ok hv author).params, sender := (addCorr d ok hv author).sender, ethTxHash := if (ok && enoughCorroborations s (addCorr d ok hv author).invalidHash.length) = true then 0 else (addCorr d ok hv author).ethTxHash, succeeded := ok }), log := s.log ++ [.result r.txId r.callerId ok] } rfl rfl rfl rfl ⟨[.result r.txId r.callerId ok], rfl, rfl⟩).1
        · rw [if_neg c7]
          refine facts_kept env s _ ⟨rfl, .inr ⟨req, _, ha, rfl, rfl, rfl, ?_⟩⟩ rfl rfl
          rw [hd]; simp only [Option.map_some]; rw [addCorr_core]
  | removeActive =>
    simp only [step, removeActive]
    cases ha : s.active with
    | none => exact hid
    | some req =>
      simp only [commit]
      have hn : (notifyFailed env s req.request).avn = s.avn ∧ (notifyFailed env s req.request).now = s.now ∧
          (notifyFailed env s req.request).lifetime = s.lifetime ∧ (notifyFailed env s req.request).block = s.block := by
        cases req.request <;> exact ⟨rfl, rfl, rfl, rfl⟩
      exact (processNext_facts env s _ hn.1 hn.2.1 hn.2.2.1 hn.2.2.2 (notifyFailed_delivered env s _)).1
  | setTxId id => exact facts_kept env s _ (kept_refl s) rfl rfl
  | setInstance v i =>
    simp only [step]
    unfold setInstance
    by_cases c1 : v = false
    · rw [if_pos c1]; exact hid
    rw [if_neg c1]
    dsimp only
    have hq : StepFacts env s { s with instanceId := i } := facts_kept env s _ (kept_refl s) rfl rfl
    cases ha : s.active with
    | none =>
      have hq' := hq
      rw [ha] at hq'; exact hq'
    | some req =>
      dsimp only
      cases hr : req.request with
      | lower r => rw [ha] at hq; exact hq
      | send r =>
        dsimp only
        cases hsu : setUpTx env { s with active := some req, instanceId := i } r 0 with
        | error e => exact hid
        | ok s' =>
          obtain ⟨hp, e1, e2, e3, e4, e5, e6, e7, e8⟩ := setUpTx_prepared env hsu
          exact ⟨.inr (.inr (.inr ⟨r, _, hp⟩)), ⟨[], by simp [commit, e6], e5⟩⟩
  | external w avn now block lifetime => exact absurd rfl (hx w avn now block lifetime)

/-- **C79.** Whatever a step of the pallet does to the active request, it does one of four things: keep it as it is
(request, message to confirm, parameters, sender, deadline and attempt); drop it with nothing to follow; set up a lower
proof request; or set up a send request exactly as `Prepared` says. Only the last one takes a turn of the sender
rotation, and it takes exactly one. -/
theorem C79_active_request_is_prepared_or_kept (s : State W) (op : Step W)
    (hx : ∀ w avn now block lifetime, op ≠ .external w avn now block lifetime) :
    let s' := step env s op
    Kept s s' ∨ (s'.active = none ∧ s'.avn = s.avn) ∨ (∃ r, PreparedLower env s s' r) ∨ ∃ r n, Prepared env s s' r n :=
  (step_facts env s op hx).setup

/-- **C80.** Every step other than activity elsewhere changes the rest of the runtime by delivering the notifications it
logs, each exactly once and in that order, and by nothing else. -/
theorem C80_notifications_are_delivered (s : State W) (op : Step W)
    (hx : ∀ w avn now block lifetime, op ≠ .external w avn now block lifetime) (new : List Obs)
    (hl : (step env s op).log = s.log ++ new) : (step env s op).world = applyNotifications env s.world new := by
  obtain ⟨n, l, w⟩ := (step_facts env s op hx).delivered
  have : n = new := List.append_cancel_left (l.symm.trans hl)
  subst this; exact w

/-! ### The message authors are asked to sign, in every reachable state -/

/-- The message of a state's active request is the one its content determines. -/
def MessageOf (s : State W) : Prop :=
  ∀ a, s.active = some a → match a.request with
    | .send r => ∃ d, a.txData = some d ∧ env.fnHash r.name d.params s.instanceId = some a.msgHash ∧
        d.params = r.params ++
          [(ascii "uint256", ascii (toString d.expiry)), (ascii "uint32", ascii (toString r.txId))]
    | .lower r => ∃ i, env.lowerHash r.params i = some a.msgHash

theorem setup_instance (s : State W) (op : Step W) : (∀ v i, op ≠ .setInstance v i) →
    (step env s op).instanceId = s.instanceId := by
  intro hop
  cases op with
  | publish name params caller rb =>
    simp only [step, publish]
    by_cases c1 : env.validUtf8 name = false
    · simp only [c1, if_true]; cases rb <;> rfl
    simp only [c1, if_false]
    by_cases c2 : name = []
    · simp only [c2, if_true]; cases rb <;> rfl
    simp only [c2, if_false]
    by_cases c3 : name.length > 32
    · simp only [c3, if_true]; cases rb <;> rfl
    simp only [c3, if_false]
    by_cases c4 : paramsFit params = false
    · simp only [c4, if_true]; cases rb <;> rfl
    simp only [c4, if_false]
    by_cases c5 : caller.length > 50
    · simp only [c5, if_true]; cases rb <;> rfl
    simp only [c5, if_false]
    cases h : enqueueOrSetUp env { s with nextTxId := wrapInc32 s.nextTxId }
      (.send { txId := s.nextTxId, name := name, params := params, callerId := caller }) with
    | error e => simp only; cases rb <;> rfl
    | ok s2 =>
      simp only
      unfold enqueueOrSetUp at h
      by_cases ha : s.active.isSome = true
      · rw [if_pos ha] at h
        unfold queueRequest at h
        by_cases hl : s.queue.length < env.maxQueued
        · rw [if_pos hl] at h; injection h with h; subst h; rfl
        · rw [if_neg hl] at h; simp at h
      · rw [if_neg ha] at h
        exact (setUp_view env h).2.1
  | lowerProof id params caller =>
    simp only [step, generateLowerProof]
    by_cases c5 : caller.length > 50
    · simp only [c5, if_true]
    simp only [c5, if_false]
    cases h : enqueueOrSetUp env s (.lower { lowerId := id, params := params, callerId := caller }) with
    | error e => rfl
    | ok s2 =>
      simp only
      unfold enqueueOrSetUp at h
      by_cases ha : s.active.isSome = true
      · rw [if_pos ha] at h
        unfold queueRequest at h
        by_cases hl : s.queue.length < env.maxQueued
        · rw [if_pos hl] at h; injection h with h; subst h; rfl
        · rw [if_neg hl] at h; simp at h
      · rw [if_neg ha] at h
        exact (setUp_view env h).2.1
  | confirm id sig author =>
    simp only [step]
    by_cases hauth : Avn.isValidator s.avn.validators author = true
    swap
    · rw [if_neg hauth]
    rw [if_pos hauth]
    unfold addConfirmation
    cases ha : s.active with
    | none => rfl
    | some req =>
      dsimp only
      by_cases c1 : req.request.idMatches id = false
      · rw [if_pos c1]; rfl
      rw [if_neg c1]
      by_cases c2 : enoughConfirmations s req.request req.confirmations.length = true
      · rw [if_pos c2]; rfl
      rw [if_neg c2]
      by_cases c0 : isSender req author = true
      · rw [if_pos c0]; rfl
      rw [if_neg c0]
      by_cases c3 : verifySignature env s req.msgHash author sig = false
      · rw [if_pos c3]; rfl
      rw [if_neg c3]
      by_cases c4 : sig ∈ req.confirmations
      · rw [if_pos c4]; rfl
      rw [if_neg c4]
      by_cases c5 : req.confirmations.length ≥ confirmationsLimit
      · rw [if_pos c5]; rfl
      rw [if_neg c5]
      cases hr : req.request with
      | send r => rfl
      | lower r =>
        dsimp only
        by_cases c6 : enoughConfirmations s (.lower r) (req.confirmations ++ [sig]).length = true
        · rw [if_pos c6]
          exact (processQueue_full env s.queue _ rfl).2.2.2
        · rw [if_neg c6]; rfl
  | ethTxHash id h author =>
    simp only [step]
    by_cases hauth : Avn.isValidator s.avn.validators author = true
    swap
    · rw [if_neg hauth]
    rw [if_pos hauth]
    unfold addEthTxHash
    cases ha : s.active with
    | none => rfl
    | some req =>
      dsimp only
      by_cases c1 : req.request.idMatches id = false
      · rw [if_pos c1]; rfl
      rw [if_neg c1]
      cases hd : req.txData with
      | none => rfl
      | some d =>
        dsimp only
        by_cases c2 : d.ethTxHash ≠ 0
        · rw [if_pos c2]; rfl
        rw [if_neg c2]
        by_cases c3 : d.sender ≠ author
        · rw [if_pos c3]; rfl
        rw [if_neg c3]; rfl
  | corroborate id ok hv author rep =>
    simp only [step]
    by_cases hauth : Avn.isValidator s.avn.validators author = true
    swap
    · rw [if_neg hauth]
    rw [if_pos hauth]
    unfold addCorroboration
    cases ha : s.active with
    | none => rfl
    | some req =>
      dsimp only
      by_cases c1 : req.request.idMatches id = false
      · rw [if_pos c1]; rfl
      rw [if_neg c1]
      cases hd : req.txData with
      | none => rfl
      | some d =>
        dsimp only
        by_cases c2 : rep ≠ d.replay
        · rw [if_pos c2]; rfl
        rw [if_neg c2]
        by_cases c3 : author = d.sender
        · rw [if_pos c3]; rfl
        rw [if_neg c3]
        by_cases c4 : author ∈ d.success ∨ author ∈ d.failure
        · rw [if_pos c4]; rfl
        rw [if_neg c4]
        by_cases c5 : (if hv = true then d.validHash else d.invalidHash).length ≥ confirmationsLimit
        · rw [if_pos c5]; rfl
        rw [if_neg c5]
        by_cases c6 : (if ok = true then d.success else d.failure).length ≥ confirmationsLimit
        · rw [if_pos c6]; rfl
        rw [if_neg c6]
        by_cases c7 : enoughCorroborations s (if ok = true then (addCorr d ok hv author).success
          else (addCorr d ok hv author).failure).length = true
        · rw [if_pos c7]
          cases hr : req.request with
          | lower r => rfl
          | send r =>
            dsimp only
            unfold finalizeState
            by_cases c8 : (!ok && enoughCorroborations s (addCorr d ok hv author).invalidHash.length) = true
            · rw [if_pos c8]
              cases hsu : setUpTx env s r (min ((addCorr d ok hv author).replay + 1) 65535) with
              | error e => rfl
              | ok s' => exact (setUpTx_prepared env hsu).2.1
            · rw [if_neg c8]
              unfold completeTransaction
              dsimp only
              by_cases c9 : (env.onResult s.world r.txId r.callerId ok).2 = false
              · rw [if_pos c9]; rfl
              · rw [if_neg c9]
                exact (processQueue_full env s.queue _ rfl).2.2.2
        · rw [if_neg c7]; rfl
  | removeActive =>
    simp only [step, removeActive]
    cases ha : s.active with
    | none => rfl
    | some req =>
      simp only [commit]
      have h1 : (notifyFailed env s req.request).instanceId = s.instanceId := by cases req.request <;> rfl
      rw [← h1]
      exact (processQueue_full env _ _ rfl).2.2.2
  | setTxId id => rfl
  | setInstance v i => exact absurd rfl (hop v i)
  | external w avn now block lifetime => rfl

theorem prepared_message {s s' : State W} {r : SendReq} {n : Nat} (h : Prepared env s s' r n) : MessageOf env s' := by
  obtain ⟨hh, x, h1, h2, h3⟩ := h
  intro a ha
  rw [h3] at ha
  have ha := Option.some.inj ha
  subst ha
  exact ⟨_, rfl, h1, rfl⟩

/-- A send request keeps its message only while the instance stays. -/
theorem step_message (s : State W) (op : Step W) (h : MessageOf env s) : MessageOf env (step env s op) := by
  by_cases hx : ∃ w avn now block lifetime, op = .external w avn now block lifetime
  · obtain ⟨w, avn, now, block, lifetime, rfl⟩ := hx
    exact h
  have hx' : ∀ w avn now block lifetime, op ≠ .external w avn now block lifetime :=
    fun w avn now block lifetime he => hx ⟨w, avn, now, block, lifetime, he⟩
  rcases (step_facts env s op hx').setup with hk | ⟨hk, -⟩ | ⟨r, -, hh, hk, ha⟩ | ⟨r, n, hp⟩
  · obtain ⟨-, ⟨h1, h2⟩ | ⟨a, a', h1, h2, h3, h4, h5⟩⟩ := hk
    · intro a ha; rw [h2] at ha; simp at ha
    · by_cases hi : ∃ v i, op = .setInstance v i
      · obtain ⟨v, i, rfl⟩ := hi
        -- a change of instance sets a send request up again, and leaves a lower proof alone
        simp only [step] at h2 ⊢
        unfold setInstance at h2 ⊢
        by_cases c1 : v = false
        · rw [if_pos c1]; exact h
        rw [if_neg c1] at h2 ⊢
        simp only [h1] at h2 ⊢
        cases hr : a.request with
        | lower r =>
          simp only [hr] at h2 ⊢
          intro b hb
          have hb' : some a = some b := hb
          have hb' := Option.some.inj hb'
          subst hb'
          have := h a h1
          rw [hr] at this ⊢
          exact this
        | send r =>
          simp only [hr] at h2 ⊢
          cases hsu : setUpTx env { s with active := some a, instanceId := i } r 0 with
          | error e => exact h
          | ok s' => exact prepared_message env (setUpTx_prepared env hsu).1
      · have hinst := setup_instance env s op (fun v i he => hi ⟨v, i, he⟩)
        intro b hb
        rw [h2] at hb
        have hb := Option.some.inj hb
        subst hb
        have := h a h1
        rw [h3, hinst, h4]
        cases hr : a.request with
        | lower r => rw [hr] at this; exact this
        | send r =>
          rw [hr] at this
          obtain ⟨d, hd, g1, g2⟩ := this
          rw [hd] at h5
          cases hd' : a'.txData with
          | none => rw [hd'] at h5; simp at h5
          | some d' =>
            rw [hd'] at h5
            simp only [Option.map_some, Option.some.injEq, Prod.mk.injEq] at h5
            exact ⟨d', rfl, by rw [h5.1]; exact g1, by rw [h5.1, h5.2.2.1]; exact g2⟩
  · intro a ha; rw [hk] at ha; simp at ha
  · intro a ha'
    rw [ha] at ha'
    have ha' := Option.some.inj ha'
    subst ha'
    exact ⟨_, hk⟩
  · exact prepared_message env hp

/-- **C79, every reachable state.** While a send request is active, the message its authors confirm is the hash, under
the bridge instance in force now, of its function name and of its parameters followed by its deadline and its transaction
id in decimal. (An active lower proof is bound to the instance in force when it was set up: `B2` in DESIGN.md.) -/
theorem C79_message_in_every_state (w : W) (avn : Avn.State) (n : Nat) (steps : List (Step W)) (a : Active)
    (ha : (run env (initial w avn n) steps).active = some a) :
    match a.request with
    | .send r => ∃ d, a.txData = some d ∧
        env.fnHash r.name d.params (run env (initial w avn n) steps).instanceId = some a.msgHash ∧
        d.params = r.params ++
          [(ascii "uint256", ascii (toString d.expiry)), (ascii "uint32", ascii (toString r.txId))]
    | .lower r => ∃ i, env.lowerHash r.params i = some a.msgHash := by
  have : MessageOf env (run env (initial w avn n) steps) := by
    unfold run
    generalize hs : initial w avn n = s
    have h0 : MessageOf env s := by subst hs; intro a ha; simp [initial] at ha
    clear hs ha
    induction steps generalizing s with
    | nil => exact h0
    | cons op steps ih => exact ih _ (step_message env s op h0)
  exact this a ha

/-! ### Requests are what was asked for -/

/-- The accepted requests of a log, in full. -/
def acceptedOf (log : List Obs) : List Request := log.filterMap (fun | .accepted r => some r | _ => none)

/-- **C79, acceptance.** When `publish` succeeds it returns the next transaction id and records exactly the request it
was given, within the bounds on name, parameters and caller id. -/
theorem C79_publish_records_its_arguments (s : State W) (name : List UInt8) (params : List Param) (caller : List UInt8)
    (id : Nat) (h : (publish env s name params caller).2 = .ok id) :
    id = s.nextTxId ∧
      (publish env s name params caller).1.log = s.log ++ [.accepted (.send ⟨id, name, params, caller⟩)] ∧
      env.validUtf8 name = true ∧ 0 < name.length ∧ name.length ≤ 32 ∧ caller.length ≤ 50 ∧ params.length ≤ 5 ∧
      ∀ p ∈ params, p.1.length ≤ 7 ∧ p.2.length ≤ 130 := by
  have hlog : ∀ s1 s2 : State W, ∀ r, enqueueOrSetUp env s1 r = .ok s2 → s2.log = s1.log := by
    intro s1 s2 r h
    unfold enqueueOrSetUp at h
    by_cases ha : s1.active.isSome = true
    · rw [if_pos ha] at h
      unfold queueRequest at h
      by_cases hl : s1.queue.length < env.maxQueued
      · rw [if_pos hl] at h; injection h with h; subst h; rfl
      · rw [if_neg hl] at h; simp at h
    · rw [if_neg ha] at h
      exact (setUp_view env h).2.2.2.2.2.2.1
  unfold publish at h ⊢
  by_cases c1 : env.validUtf8 name = false
  · simp [c1] at h
  rw [if_neg c1] at h ⊢
  by_cases c2 : name = []
  · simp [c2] at h
  rw [if_neg c2] at h ⊢
  dsimp only at h ⊢
  by_cases c3 : name.length > 32
  · simp [c3] at h
  rw [if_neg c3] at h ⊢
  by_cases c4 : paramsFit params = false
  · simp [c4] at h
  rw [if_neg c4] at h ⊢
  by_cases c5 : caller.length > 50
  · simp [c5] at h
  rw [if_neg c5] at h ⊢
  cases hq : enqueueOrSetUp env { s with nextTxId := wrapInc32 s.nextTxId }
    (.send { txId := s.nextTxId, name := name, params := params, callerId := caller }) with
  | error e => rw [hq] at h; simp at h
  | ok s2 =>
    rw [hq] at h
    simp only [Except.ok.injEq] at h
    subst h
    have hl := hlog _ _ _ hq
    simp only at hl ⊢
    have c4' : paramsFit params = true := by simpa using c4
    simp only [paramsFit, Bool.and_eq_true, List.all_eq_true, decide_eq_true_eq] at c4'
    refine ⟨trivial, by rw [hl], by simpa using c1, List.length_pos_of_ne_nil c2, by omega, by omega, c4'.2, ?_⟩
    intro p hp
    exact c4'.1 p hp

theorem step_requests (s : State W) (op : Step W) :
    (∀ r ∈ acceptedOf s.log, r ∈ acceptedOf (step env s op).log) ∧
    ∀ r, (r ∈ (step env s op).active.toList.map Active.request ++ (step env s op).queue) →
      r ∈ s.active.toList.map Active.request ++ s.queue ∨ r ∈ acceptedOf (step env s op).log := by
  have hfin : ∀ (req : Active) o s', s.active = some req → Finished env s o s' →
      (∀ r ∈ acceptedOf s.log, r ∈ acceptedOf s'.log) ∧ ∀ r, r ∈ s'.active.toList.map Active.request ++ s'.queue →
      r ∈ s.active.toList.map Active.request ++ s.queue ∨ r ∈ acceptedOf s'.log := by
    rintro req o s' ha ⟨dropped, hl, hq, -⟩
    refine ⟨fun r hr => by rw [hl]; simp only [acceptedOf, List.filterMap_append, List.mem_append] at hr ⊢; exact .inl (.inl hr), fun r hr => .inl ?_⟩
    rw [← hq]
    exact List.mem_append_right _ (List.mem_append_right _ hr)
  have hv := step_view env s op
  generalize step env s op = s' at hv
  cases hv with
  | quiet op s' ha hq hl => rw [ha, hq, hl]; exact ⟨fun _ h => h, fun _ h => .inl h⟩
  | queued op r s' ha hlen ha' hq hl =>
    rw [ha', hq, hl]
    refine ⟨fun x hx => by simp only [acceptedOf, List.filterMap_append, List.mem_append] at hx ⊢; exact .inl hx, ?_⟩
    intro x hx
    rw [← List.append_assoc, List.mem_append] at hx
    rcases hx with hx | hx
    · exact .inl hx
    · right; simp only [acceptedOf, List.filterMap_append, List.mem_append]; right; simpa using hx
  | activated op r a s' ha ha' hf hq hl =>
    rw [ha', hq, hl]
    refine ⟨fun x hx => by simp only [acceptedOf, List.filterMap_append, List.mem_append] at hx ⊢; exact .inl hx, ?_⟩
    intro x hx
    simp only [Option.toList_some, List.map_cons, List.map_nil, List.mem_append, List.mem_singleton] at hx
    rcases hx with hx | hx
    · right; rw [hx, hf.1]; simp [acceptedOf]
    · left; simp [hx]
  | confirmed id sig author req ha => exact ⟨fun _ h => h, fun _ h => .inl (by simpa [ha] using h)⟩
  | lowerDone id sig author req r s' ha hr hid hauth hver hnew henough hf => exact hfin req _ _ ha hf
  | hashed id h author req d ha => exact ⟨fun _ h => h, fun _ h => .inl (by simpa [ha] using h)⟩
  | corroborated id ok hv author rep req d ha => exact ⟨fun _ h => h, fun _ h => .inl (by simpa [ha] using h)⟩
  | decided id ok hv author rep req d r s' ha hr hid hd hrep hauth hns hnew henough hf => exact hfin req _ _ ha hf
  | removed req s' ha hf => exact hfin req _ _ ha hf
  | reset op req r a s' ha hr ha' hf hop hq hl =>
    rw [ha', hq, hl]
    refine ⟨fun _ h => h, fun x hx => .inl ?_⟩
    simpa [ha, hr, hf.1] using hx

/-- **C79, nothing else is ever sent.** In every history from genesis, every request being served or waiting is, in full
(id, function, parameters, caller), one that was accepted. -/
theorem C79_only_accepted_requests (w : W) (avn : Avn.State) (n : Nat) (steps : List (Step W)) (r : Request)
    (hr : let s := run env (initial w avn n) steps; r ∈ s.active.toList.map Active.request ++ s.queue) :
    r ∈ acceptedOf (run env (initial w avn n) steps).log := by
  induction steps using List.reverseRecOn generalizing r with
  | nil => simp [run, initial] at hr
  | append_singleton steps op ih =>
    have hs : run env (initial w avn n) (steps ++ [op]) = step env (run env (initial w avn n) steps) op := by simp [run]
    rw [hs] at hr ⊢
    obtain ⟨h1, h2⟩ := step_requests env (run env (initial w avn n) steps) op
    rcases h2 r hr with h | h
    · exact h1 r (ih r h)
    · exact h

/-! ### Confirmations -/

/-- **C79, confirmations of a send request.** A confirmation is recorded exactly when its author is a validator other than
the sender, it names the active request, it is that author's signature of the message, it is new, and together with the
sender fewer than a quorum of the authors have confirmed so far (and fewer than 100 confirmations are held). -/
theorem C79_confirmation_recorded_iff (s : State W) (id sig author : Nat) (req : Active) (r : SendReq) (d : TxData)
    (ha : s.active = some req) (hr : req.request = .send r) (hd : req.txData = some d) :
    (step env s (.confirm id sig author)).active = some { req with
        confirmations := req.confirmations ++ [sig], lastUpdated := s.block } ↔
      Avn.isValidator s.avn.validators author = true ∧ r.txId = id ∧ author ≠ d.sender ∧
        env.signer req.msgHash sig = some author ∧ sig ∉ req.confirmations ∧ req.confirmations.length < 100 ∧
        req.confirmations.length + 1 < Avn.requiredFor s.avn.validators.length := by
  have hne : s.active ≠ some { req with confirmations := req.confirmations ++ [sig], lastUpdated := s.block } := by
    rw [ha]; intro h
    have := congrArg (fun o => o.map (fun a => a.confirmations.length)) h
    simp at this
  simp only [step]
  by_cases hauth : Avn.isValidator s.avn.validators author = true
  swap
  · rw [if_neg hauth]; simp [hne, hauth]
  rw [if_pos hauth]
  unfold addConfirmation
  rw [ha]
  dsimp only
  by_cases c1 : req.request.idMatches id = false
  · rw [if_pos c1]
    have : r.txId ≠ id := by rw [hr] at c1; simpa [Request.idMatches] using c1
    simp only [commit]
    exact ⟨fun h => absurd h hne, fun h => absurd h.2.1 this⟩
  rw [if_neg c1]
  have hid : r.txId = id := by rw [hr] at c1; simpa [Request.idMatches] using c1
  by_cases c2 : enoughConfirmations s req.request req.confirmations.length = true
  · rw [if_pos c2]
    have : Avn.requiredFor s.avn.validators.length ≤ req.confirmations.length + 1 := by
      rw [hr] at c2; exact of_decide_eq_true c2
    simp only [commit]
    exact ⟨fun h => absurd h hne, fun h => by omega⟩
  rw [if_neg c2]
  have hq : req.confirmations.length + 1 < Avn.requiredFor s.avn.validators.length := by
    rw [hr] at c2
    have : ¬ Avn.requiredFor s.avn.validators.length ≤ req.confirmations.length + 1 :=
      fun hh => c2 (decide_eq_true hh)
    omega
  by_cases c0 : isSender req author = true
  · rw [if_pos c0]
    have : author = d.sender := by simpa [isSender, hr, hd] using c0
    simp only [commit]
    exact ⟨fun h => absurd h hne, fun h => absurd this h.2.2.1⟩
  rw [if_neg c0]
  have hns : author ≠ d.sender := by simpa [isSender, hr, hd] using c0
  by_cases c3 : verifySignature env s req.msgHash author sig = false
  · rw [if_pos c3]
    have : env.signer req.msgHash sig ≠ some author := by
      simpa [verifySignature, hauth] using c3
    simp only [commit]
    exact ⟨fun h => absurd h hne, fun h => absurd h.2.2.2.1 this⟩
  rw [if_neg c3]
  have hsig : env.signer req.msgHash sig = some author := by simpa [verifySignature, hauth] using c3
  by_cases c4 : sig ∈ req.confirmations
  · rw [if_pos c4]
    simp only [commit]
    exact ⟨fun h => absurd h hne, fun h => absurd c4 h.2.2.2.2.1⟩
  rw [if_neg c4]
  by_cases c5 : req.confirmations.length ≥ confirmationsLimit
  · rw [if_pos c5]
    simp only [commit]
    have : confirmationsLimit = 100 := rfl
    exact ⟨fun h => absurd h hne, fun h => by omega⟩
  rw [if_neg c5]
  have h100 : req.confirmations.length < 100 := by
    have : confirmationsLimit = 100 := rfl
    omega
  constructor
  · intro _; exact ⟨hauth, hid, hns, hsig, c4, h100, hq⟩
  · intro _
    cases req with
    | mk rq mh cf td lu =>
      simp only at hr
      subst hr
      rfl

/-! ### The record of settled transactions -/

/-- What a corroboration does to the record and the log. -/
theorem corroborate_settles (s : State W) (tid : Nat) (ok hv : Bool) (author rep : Nat) :
    let s' := step env s (.corroborate tid ok hv author rep)
    (s'.settled = s.settled ∧ s'.log = s.log) ∨
      ∃ req r d, s.active = some req ∧ req.request = .send r ∧ r.txId = tid ∧ req.txData = some d ∧ author ≠ d.sender ∧
      ∃ hash more, s'.settled = upd s.settled tid (some ⟨r.name, d.params, d.sender, hash, ok⟩) ∧
      (hash = d.ethTxHash ∨ hash = 0 ∧ ok = true ∧
        enoughCorroborations s (addCorr d ok hv author).invalidHash.length = true) ∧
      s'.log = s.log ++ .result tid r.callerId ok :: more := by
  have hid : (s.settled = s.settled ∧ s.log = s.log) ∨ ∃ req r d, s.active = some req ∧ req.request = .send r ∧ r.txId = tid ∧ req.txData = some d ∧ author ≠ d.sender ∧
      ∃ hash more, s.settled = upd s.settled tid (some ⟨r.name, d.params, d.sender, hash, ok⟩) ∧
      (hash = d.ethTxHash ∨ hash = 0 ∧ ok = true ∧
        enoughCorroborations s (addCorr d ok hv author).invalidHash.length = true) ∧
      s.log = s.log ++ .result tid r.callerId ok :: more := .inl ⟨rfl, rfl⟩
  dsimp only
  simp only [step]
  by_cases hauth : Avn.isValidator s.avn.validators author = true
  swap
  · rw [if_neg hauth]; exact hid
  rw [if_pos hauth]
  unfold addCorroboration
  cases ha : s.active with
  | none => exact .inl ⟨rfl, rfl⟩
  | some req =>
    dsimp only
    by_cases c1 : req.request.idMatches tid = false
    · rw [if_pos c1]; exact .inl ⟨rfl, rfl⟩
    rw [if_neg c1]
    cases hd : req.txData with
    | none => exact .inl ⟨rfl, rfl⟩
    | some d =>
      dsimp only
      by_cases c2 : rep ≠ d.replay
      · rw [if_pos c2]; exact .inl ⟨rfl, rfl⟩
      rw [if_neg c2]
      by_cases c3 : author = d.sender
      · rw [if_pos c3]; exact .inl ⟨rfl, rfl⟩
      rw [if_neg c3]
      by_cases c4 : author ∈ d.success ∨ author ∈ d.failure
      · rw [if_pos c4]; exact .inl ⟨rfl, rfl⟩
      rw [if_neg c4]
      by_cases c5 : (if hv = true then d.validHash else d.invalidHash).length ≥ confirmationsLimit
      · rw [if_pos c5]; exact .inl ⟨rfl, rfl⟩
      rw [if_neg c5]
      by_cases c6 : (if ok = true then d.success else d.failure).length ≥ confirmationsLimit
      · rw [if_pos c6]; exact .inl ⟨rfl, rfl⟩
      rw [if_neg c6]
      by_cases c7 : enoughCorroborations s (if ok = true then (addCorr d ok hv author).success
        else (addCorr d ok hv author).failure).length = true
      swap
      · rw [if_neg c7]; exact .inl ⟨rfl, rfl⟩
      rw [if_pos c7]
      cases hr : req.request with
      | lower r => exact .inl ⟨rfl, rfl⟩
      | send r =>
        dsimp only
        have hrid : r.txId = tid := by rw [hr] at c1; simpa [Request.idMatches] using c1
        unfold finalizeState
        by_cases c8 : (!ok && enoughCorroborations s (addCorr d ok hv author).invalidHash.length) = true
        · rw [if_pos c8]
          cases hsu : setUpTx env s r (min ((addCorr d ok hv author).replay + 1) 65535) with
          | error e => exact .inl ⟨rfl, rfl⟩
          | ok s' =>
            have hp := (setUpTx_prepared env hsu).2.2.2.2.2.2
            exact .inl ⟨hp.2.1, hp.1⟩
        · rw [if_neg c8]
          unfold completeTransaction
          dsimp only
          by_cases c9 : (env.onResult s.world r.txId r.callerId ok).2 = false
          · rw [if_pos c9]; exact .inl ⟨rfl, rfl⟩
          rw [if_neg c9]
          simp only [commit]
          have hpq := processQueue_full env s.queue
            { s with
              active := none
              world := (env.onResult s.world r.txId r.callerId ok).1
              settled := upd s.settled r.txId (some { name := r.name, params := (addCorr d ok hv author).params, sender := (addCorr d ok hv author).sender, ethTxHash := if (ok && enoughCorroborations s (addCorr d ok hv author).invalidHash.length) = true then 0 else (addCorr d ok hv author).ethTxHash, succeeded := ok })
              log := s.log ++ [.result r.txId r.callerId ok] } rfl
          have hs := hpq.2.2.1
          obtain ⟨more, hml, -⟩ := hpq.2.1
          have hcore := addCorr_core d ok hv author
          simp only [Prod.mk.injEq] at hcore
          have hhash := (addCorr_rest d ok hv author).2.1
          refine .inr ⟨req, r, d, rfl, hr, hrid, hd, c3,
            if (ok && enoughCorroborations s (addCorr d ok hv author).invalidHash.length) = true then 0
              else (addCorr d ok hv author).ethTxHash, more, ?_, ?_, ?_⟩
          · rw [← hrid]
            refine Eq.trans hs ?_
            simp only [hcore.1, hcore.2.1]
          · by_cases hc : (ok && enoughCorroborations s (addCorr d ok hv author).invalidHash.length) = true
            · rw [if_pos hc]
              right
              simpa using hc
            · rw [if_neg hc, hhash]; exact .inl rfl
          · have hml' : (processNext env { s with
              world := (env.onResult s.world r.txId r.callerId ok).1
              settled := upd s.settled r.txId (some { name := r.name, params := (addCorr d ok hv author).params, sender := (addCorr d ok hv author).sender, ethTxHash := if (ok && enoughCorroborations s (addCorr d ok hv author).invalidHash.length) = true then 0 else (addCorr d ok hv author).ethTxHash, succeeded := ok })
              log := s.log ++ [.result r.txId r.callerId ok] }).log = s.log ++ [.result r.txId r.callerId ok] ++ more := hml
            rw [← hrid]
            refine Eq.trans ?_ (hml'.trans (by simp))
            rfl

/-- **C80, decided transactions are recorded.** When a corroboration of the active send request `id` with outcome `ok`
leads to any answer being sent, the record of `id` afterwards holds that request's function, confirmed parameters and
sender with outcome `ok`, and the caller was told `ok`. -/
theorem C80_decided_is_recorded (s : State W) (id : Nat) (ok hv : Bool) (author rep : Nat)
    (h : (step env s (.corroborate id ok hv author rep)).log ≠ s.log) :
    ∃ req r d hash more, s.active = some req ∧ req.request = .send r ∧ r.txId = id ∧ req.txData = some d ∧
      (step env s (.corroborate id ok hv author rep)).settled id = some ⟨r.name, d.params, d.sender, hash, ok⟩ ∧
      (step env s (.corroborate id ok hv author rep)).log = s.log ++ .result id r.callerId ok :: more := by
  rcases corroborate_settles env s id ok hv author rep with ⟨-, hl⟩ | ⟨req, r, d, h1, h2, h3, h4, -, hash, more, h6, -, h8⟩
  · exact absurd hl h
  · exact ⟨req, r, d, hash, more, h1, h2, h3, h4, by rw [h6]; simp, h8⟩

/-- **C80, settled transactions.** The record of a transaction id changes only when a corroboration decides the active
send request with that id, and then it holds that request's function, the parameters that were confirmed, its sender, the
corroborated outcome, and the Ethereum hash the sender reported (or none, if the transaction succeeded but a quorum found
that hash invalid). -/
theorem C80_settled_record (s : State W) (op : Step W) (id : Nat) (h : (step env s op).settled id ≠ s.settled id) :
    ∃ ok hv author rep req r d, op = .corroborate id ok hv author rep ∧ s.active = some req ∧ req.request = .send r ∧
      r.txId = id ∧ req.txData = some d ∧ author ≠ d.sender ∧ ∃ hash,
      (step env s op).settled id = some ⟨r.name, d.params, d.sender, hash, ok⟩ ∧
      (hash = d.ethTxHash ∨ hash = 0 ∧ ok = true ∧
        enoughCorroborations s (addCorr d ok hv author).invalidHash.length = true) ∧
      .result id r.callerId ok ∈ (step env s op).log := by
  have hset : ∀ (s1 s2 : State W) r, enqueueOrSetUp env s1 r = .ok s2 → s2.settled = s1.settled := by
    intro s1 s2 r h
    unfold enqueueOrSetUp at h
    by_cases ha : s1.active.isSome = true
    · rw [if_pos ha] at h
      unfold queueRequest at h
      by_cases hl : s1.queue.length < env.maxQueued
      · rw [if_pos hl] at h; injection h with h; subst h; rfl
      · rw [if_neg hl] at h; simp at h
    · rw [if_neg ha] at h
      exact (setUp_view env h).2.2.2.2.2.2.2.1
  cases op with
  | publish name params caller rb =>
    exfalso; apply h
    simp only [step, publish]
    by_cases c1 : env.validUtf8 name = false
    · simp only [c1, if_true]; cases rb <;> rfl
    simp only [c1, Bool.true_eq_false, if_false]
    by_cases c2 : name = []
    · simp only [c2, if_true]; cases rb <;> rfl
    simp only [c2, if_false]
    by_cases c3 : name.length > 32
    · simp only [c3, if_true]; cases rb <;> rfl
    simp only [c3, if_false]
    by_cases c4 : paramsFit params = false
    · simp only [c4, if_true]; cases rb <;> rfl
    simp only [c4, Bool.true_eq_false, if_false]
    by_cases c5 : caller.length > 50
    · simp only [c5, if_true]; cases rb <;> rfl
    simp only [c5, if_false]
    cases hq : enqueueOrSetUp env { s with nextTxId := wrapInc32 s.nextTxId }
      (.send { txId := s.nextTxId, name := name, params := params, callerId := caller }) with
    | error e => simp only; cases rb <;> rfl
    | ok s2 => simp only [hset _ _ _ hq]
  | lowerProof lid params caller =>
    exfalso; apply h
    simp only [step, generateLowerProof]
    by_cases c5 : caller.length > 50
    · simp only [c5, if_true]
    simp only [c5, if_false]
    cases hq : enqueueOrSetUp env s (.lower { lowerId := lid, params := params, callerId := caller }) with
    | error e => rfl
    | ok s2 => simp only [hset _ _ _ hq]
  | confirm rid sig author =>
    exfalso; apply h
    simp only [step]
    by_cases hauth : Avn.isValidator s.avn.validators author = true
    swap
    · rw [if_neg hauth]
    rw [if_pos hauth]
    unfold addConfirmation
    cases ha : s.active with
    | none => rfl
    | some req =>
      dsimp only
      by_cases c1 : req.request.idMatches rid = false
      · rw [if_pos c1]; rfl
      rw [if_neg c1]
      by_cases c2 : enoughConfirmations s req.request req.confirmations.length = true
      · rw [if_pos c2]; rfl
      rw [if_neg c2]
      by_cases c0 : isSender req author = true
      · rw [if_pos c0]; rfl
      rw [if_neg c0]
      by_cases c3 : verifySignature env s req.msgHash author sig = false
      · rw [if_pos c3]; rfl
      rw [if_neg c3]
      by_cases c4 : sig ∈ req.confirmations
      · rw [if_pos c4]; rfl
      rw [if_neg c4]
      by_cases c5 : req.confirmations.length ≥ confirmationsLimit
      · rw [if_pos c5]; rfl
      rw [if_neg c5]
      cases hr : req.request with
      | send r => rfl
      | lower r =>
        dsimp only
        by_cases c6 : enoughConfirmations s (.lower r) (req.confirmations ++ [sig]).length = true
        · rw [if_pos c6]
          exact congrFun (processQueue_full env s.queue _ rfl).2.2.1 id
        · rw [if_neg c6]; rfl
  | ethTxHash tid hh author =>
    exfalso; apply h
    simp only [step]
    by_cases hauth : Avn.isValidator s.avn.validators author = true
    swap
    · rw [if_neg hauth]
    rw [if_pos hauth]
    unfold addEthTxHash
    cases ha : s.active with
    | none => rfl
    | some req =>
      dsimp only
      by_cases c1 : req.request.idMatches tid = false
      · rw [if_pos c1]; rfl
      rw [if_neg c1]
      cases hd : req.txData with
      | none => rfl
      | some d =>
        dsimp only
        by_cases c2 : d.ethTxHash ≠ 0
        · rw [if_pos c2]; rfl
        rw [if_neg c2]
        by_cases c3 : d.sender ≠ author
        · rw [if_pos c3]; rfl
        rw [if_neg c3]; rfl
  | corroborate tid ok hv author rep =>
    rcases corroborate_settles env s tid ok hv author rep with ⟨hl, -⟩ | ⟨req, r, d, h1, h2, h3, h4, h5, hash, more, h6, h7, h8⟩
    · exact absurd (congrFun hl id) h
    · have hidt : id = tid := by
        by_contra hne
        apply h
        rw [h6, upd_ne _ _ hne]
      subst hidt
      exact ⟨ok, hv, author, rep, req, r, d, rfl, h1, h2, h3, h4, h5, hash, by rw [h6]; simp, h7, by rw [h8]; simp⟩
  | removeActive =>
    exfalso; apply h
    simp only [step, removeActive]
    cases ha : s.active with
    | none => rfl
    | some req =>
      simp only [commit]
      have h1 : (notifyFailed env s req.request).settled = s.settled := by cases req.request <;> rfl
      rw [← h1]
      exact congrFun (processQueue_full env _ _ rfl).2.2.1 id
  | setTxId _ => exact absurd rfl h
  | setInstance v i =>
    exfalso; apply h
    simp only [step]
    unfold setInstance
    by_cases c1 : v = false
    · rw [if_pos c1]; rfl
    rw [if_neg c1]
    dsimp only
    cases ha : s.active with
    | none => rfl
    | some req =>
      dsimp only
      cases hr : req.request with
      | lower r => rfl
      | send r =>
        dsimp only
        cases hsu : setUpTx env { s with active := some req, instanceId := i } r 0 with
        | error e => rfl
        | ok s' => exact congrFun (setUpTx_prepared env hsu).2.2.2.2.2.2.2.1 id
  | external w avn now block lifetime => exact absurd rfl h

/-- Non-vacuity: the first request of the example is set up for sender 2 with deadline 1800, settled as successful with the
reported hash, and both answers of the example reach the caller. -/
example :
    ((step exEnv ex0 (.publish [65] [] [1] true)).active.bind (·.txData)).map (fun d => (d.sender, d.expiry, d.params.length))
      = some (2, 1800, 2) ∧
    (run exEnv ex0 exSteps).settled 5 = some ⟨[65], [(ascii "uint256", ascii "1800"), (ascii "uint32", ascii "5")], 2, 1234, true⟩ ∧
    (run exEnv ex0 exSteps).world = 2 ∧
    ((step exEnv (run exEnv { ex0 with avn := { exAvn with validators := exAvn.validators ++ [⟨5, 5⟩, ⟨6, 6⟩, ⟨7, 7⟩] } } [.publish [65] [] [1] true])
      (.confirm 5 30 3)).active.map (·.confirmations)) = some [30] := by
  decide +kernel

end Verif.BridgeTx
