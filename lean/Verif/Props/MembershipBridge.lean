import Verif.Props.MembershipJoin

/-!
# C113: can the pallet behind a request hold up the bridge?

`Model/EthBridgeTx` with the chain of `Model/Membership` as the rest of the runtime.
-/

namespace Verif.Membership

open Verif.Staking (EPar St Full EOp CRec Core Inv Eligible BestChoice)
open Verif (BridgeTx.State)

variable {W : Type}

/-- The active request of the bridge. -/
def activeRequest (s : BridgeTx.State W) : Option BridgeTx.Request := s.active.map BridgeTx.Active.request

/-- Steps of an honest run after the transaction of the active request succeeded on Ethereum: nobody corroborates a failure, the
administrator does not intervene, and the rest of the runtime stays within `P`. -/
def HonestStep (P : W → Prop) : BridgeTx.Step W → Prop
  | .removeActive => False
  | .corroborate _ ok _ _ _ => ok = true
  | .external w _ _ _ _ => P w
  | _ => True

theorem setUpTx_keeps (env : BridgeTx.Env W) {s s' : BridgeTx.State W} {r : BridgeTx.SendReq} {n : Nat} (h : BridgeTx.setUpTx env s r n = .ok s') :
    activeRequest s' = some (.send r) ∧ s'.world = s.world ∧ s'.queue = s.queue := by
  unfold BridgeTx.setUpTx at h
  dsimp only at h
  cases h1 : BridgeTx.extendParams r (s.now + s.lifetime) with
  | none => rw [h1] at h; cases h
  | some ps =>
    rw [h1] at h
    dsimp only at h
    cases h2 : env.fnHash r.name ps s.instanceId with
    | none => rw [h2] at h; cases h
    | some m =>
      rw [h2] at h
      dsimp only at h
      cases h3 : Avn.advancePrimary s.avn with
      | error e => rw [h3] at h; cases h
      | ok p =>
        rw [h3] at h
        obtain ⟨sender, avn⟩ := p
        dsimp only at h
        injection h with h
        subst h
        exact ⟨rfl, rfl, rfl⟩

theorem commit_keeps {s : BridgeTx.State W} {Q : BridgeTx.State W → Prop} (h : Q s) {o : Except BridgeTx.Err (BridgeTx.State W)}
    (ho : ∀ s', o = .ok s' → Q s') : Q (BridgeTx.commit s o) := by
  cases o with
  | ok s' => exact ho s' rfl
  | error e => exact h

/-- One step while the pallet behind the active request refuses its success. -/
theorem blocked_step (env : BridgeTx.Env W) (P : W → Prop) (r : BridgeTx.SendReq)
    (href : ∀ w, P w → (env.onResult w r.txId r.callerId true).2 = false) (s : BridgeTx.State W)
    (ha : activeRequest s = some (.send r)) (hP : P s.world) (x : BridgeTx.Step W) (hx : HonestStep P x) :
    activeRequest (BridgeTx.step env s x) = some (.send r) ∧ P (BridgeTx.step env s x).world ∧
      ∃ more, (BridgeTx.step env s x).queue = s.queue ++ more := by
  obtain ⟨q, hq, hr⟩ : ∃ q, s.active = some q ∧ q.request = .send r := by
    unfold activeRequest at ha
    cases e : s.active with
    | none => rw [e] at ha; cases ha
    | some q => rw [e] at ha; exact ⟨q, rfl, by injection ha⟩
  have hsome : ∀ t : BridgeTx.State W, t.active = s.active → t.active.isSome = true := by intro t e; rw [e, hq]; rfl
  have stay : activeRequest s = some (.send r) ∧ P s.world ∧ ∃ more, s.queue = s.queue ++ more := ⟨ha, hP, [], (List.append_nil _).symm⟩
  have enq : ∀ (t t' : BridgeTx.State W) (rq : BridgeTx.Request), t.active = s.active → t.world = s.world → t.queue = s.queue →
      BridgeTx.enqueueOrSetUp env t rq = .ok t' → activeRequest t' = some (.send r) ∧ P t'.world ∧ ∃ more, t'.queue = s.queue ++ more := by
    intro t t' rq e1 e2 e3 e4
    unfold BridgeTx.enqueueOrSetUp at e4
    rw [if_pos (hsome t e1)] at e4
    unfold BridgeTx.queueRequest at e4
    by_cases hl : t.queue.length < env.maxQueued
    · rw [if_pos hl] at e4
      injection e4 with e4
      subst e4
      refine ⟨?_, by rw [← e2] at hP; exact hP, [rq], by rw [← e3]⟩
      show (t.active.map BridgeTx.Active.request) = _
      rw [e1]; exact ha
    · rw [if_neg hl] at e4; cases e4
  cases x with
  | publish name params caller rollback =>
    have hpub : (fun t : BridgeTx.State W => activeRequest t = some (.send r) ∧ P t.world ∧ ∃ more, t.queue = s.queue ++ more)
        (BridgeTx.publish env s name params caller).1 := by
      unfold BridgeTx.publish
      by_cases c1 : env.validUtf8 name = false
      · rw [if_pos c1]; exact stay
      rw [if_neg c1]
      by_cases c2 : name = []
      · rw [if_pos c2]; exact stay
      rw [if_neg c2]
      dsimp only
      by_cases c3 : name.length > 32
      · rw [if_pos c3]; exact stay
      rw [if_neg c3]
      by_cases c4 : BridgeTx.paramsFit params = false
      · rw [if_pos c4]; exact stay
      rw [if_neg c4]
      by_cases c5 : caller.length > 50
      · rw [if_pos c5]; exact stay
      rw [if_neg c5]
      cases e : BridgeTx.enqueueOrSetUp env { s with nextTxId := wrapInc32 s.nextTxId }
          (.send { txId := s.nextTxId, name := name, params := params, callerId := caller }) with
      | ok s2 =>
        exact enq { s with nextTxId := wrapInc32 s.nextTxId } s2 _ rfl rfl rfl e
      | error e => exact stay
    show (fun t : BridgeTx.State W => activeRequest t = some (.send r) ∧ P t.world ∧ ∃ more, t.queue = s.queue ++ more)
      (match (BridgeTx.publish env s name params caller).2 with
        | .ok _ => (BridgeTx.publish env s name params caller).1
        | .error _ => if rollback then s else (BridgeTx.publish env s name params caller).1)
    cases (BridgeTx.publish env s name params caller).2 with
    | ok _ => exact hpub
    | error _ =>
      cases rollback with
      | true => exact stay
      | false => exact hpub
  | lowerProof id params caller =>
    show (fun t : BridgeTx.State W => activeRequest t = some (.send r) ∧ P t.world ∧ ∃ more, t.queue = s.queue ++ more)
      (BridgeTx.generateLowerProof env s id params caller).1
    unfold BridgeTx.generateLowerProof
    by_cases c5 : caller.length > 50
    · rw [if_pos c5]; exact stay
    rw [if_neg c5]
    dsimp only
    cases e : BridgeTx.enqueueOrSetUp env s (.lower { lowerId := id, params := params, callerId := caller }) with
    | ok s2 => exact enq _ s2 _ rfl rfl rfl e
    | error e => exact stay
  | confirm id sig a =>
    show (fun t : BridgeTx.State W => activeRequest t = some (.send r) ∧ P t.world ∧ ∃ more, t.queue = s.queue ++ more)
      (if Avn.isValidator s.avn.validators a then BridgeTx.commit s (BridgeTx.addConfirmation env s id sig a) else s)
    by_cases hv : Avn.isValidator s.avn.validators a = true
    · rw [if_pos hv]
      refine commit_keeps (Q := fun t => activeRequest t = some (.send r) ∧ P t.world ∧ ∃ more, t.queue = s.queue ++ more) stay ?_
      intro s' hs'
      unfold BridgeTx.addConfirmation at hs'
      rw [hq] at hs'
      dsimp only at hs'
      by_cases c1 : q.request.idMatches id = false
      · rw [if_pos c1] at hs'; injection hs' with hs'; subst hs'; exact stay
      rw [if_neg c1] at hs'
      by_cases c2 : BridgeTx.enoughConfirmations s q.request q.confirmations.length = true
      · rw [if_pos c2] at hs'; injection hs' with hs'; subst hs'; exact stay
      rw [if_neg c2] at hs'
      by_cases c3 : BridgeTx.isSender q a = true
      · rw [if_pos c3] at hs'; injection hs' with hs'; subst hs'; exact stay
      rw [if_neg c3] at hs'
      by_cases c4 : BridgeTx.verifySignature env s q.msgHash a sig = false
      · rw [if_pos c4] at hs'; cases hs'
      rw [if_neg c4] at hs'
      by_cases c5 : sig ∈ q.confirmations
      · rw [if_pos c5] at hs'; cases hs'
      rw [if_neg c5] at hs'
      by_cases c6 : q.confirmations.length ≥ BridgeTx.confirmationsLimit
      · rw [if_pos c6] at hs'; cases hs'
      rw [if_neg c6, hr] at hs'
      dsimp only at hs'
      injection hs' with hs'
      subst hs'
      exact ⟨rfl, hP, [], (List.append_nil _).symm⟩
    · rw [if_neg hv]; exact stay
  | ethTxHash id h a =>
    show (fun t : BridgeTx.State W => activeRequest t = some (.send r) ∧ P t.world ∧ ∃ more, t.queue = s.queue ++ more)
      (if Avn.isValidator s.avn.validators a then BridgeTx.commit s (BridgeTx.addEthTxHash s id h a) else s)
    by_cases hv : Avn.isValidator s.avn.validators a = true
    · rw [if_pos hv]
      refine commit_keeps (Q := fun t => activeRequest t = some (.send r) ∧ P t.world ∧ ∃ more, t.queue = s.queue ++ more) stay ?_
      intro s' hs'
      unfold BridgeTx.addEthTxHash at hs'
      rw [hq] at hs'
      dsimp only at hs'
      by_cases c1 : q.request.idMatches id = false
      · rw [if_pos c1] at hs'; injection hs' with hs'; subst hs'; exact stay
      rw [if_neg c1] at hs'
      cases hd : q.txData with
      | none => rw [hd] at hs'; injection hs' with hs'; subst hs'; exact stay
      | some d =>
        rw [hd] at hs'
        dsimp only at hs'
        by_cases c2 : d.ethTxHash ≠ 0
        · rw [if_pos c2] at hs'; cases hs'
        rw [if_neg c2] at hs'
        by_cases c3 : d.sender ≠ a
        · rw [if_pos c3] at hs'; cases hs'
        rw [if_neg c3] at hs'
        injection hs' with hs'
        subst hs'
        exact ⟨by show some q.request = _; rw [hr], hP, [], (List.append_nil _).symm⟩
    · rw [if_neg hv]; exact stay
  | corroborate id ok hv' a rep =>
    have hx : ok = true := hx
    subst hx
    show (fun t : BridgeTx.State W => activeRequest t = some (.send r) ∧ P t.world ∧ ∃ more, t.queue = s.queue ++ more)
      (if Avn.isValidator s.avn.validators a then BridgeTx.commit s (BridgeTx.addCorroboration env s id true hv' a rep) else s)
    by_cases hv : Avn.isValidator s.avn.validators a = true
    · rw [if_pos hv]
      refine commit_keeps (Q := fun t => activeRequest t = some (.send r) ∧ P t.world ∧ ∃ more, t.queue = s.queue ++ more) stay ?_
      intro s' hs'
      unfold BridgeTx.addCorroboration at hs'
      rw [hq] at hs'
      dsimp only at hs'
      by_cases c1 : q.request.idMatches id = false
      · rw [if_pos c1] at hs'; injection hs' with hs'; subst hs'; exact stay
      rw [if_neg c1] at hs'
      cases hd : q.txData with
      | none => rw [hd] at hs'; injection hs' with hs'; subst hs'; exact stay
      | some d =>
        rw [hd] at hs'
        dsimp only at hs'
        by_cases c2 : rep ≠ d.replay
        · rw [if_pos c2] at hs'; cases hs'
        rw [if_neg c2] at hs'
        by_cases c3 : a = d.sender
        · rw [if_pos c3] at hs'; cases hs'
        rw [if_neg c3] at hs'
        by_cases c4 : a ∈ d.success ∨ a ∈ d.failure
        · rw [if_pos c4] at hs'; injection hs' with hs'; subst hs'; exact stay
        rw [if_neg c4] at hs'
        by_cases c5 : (if hv' then d.validHash else d.invalidHash).length ≥ BridgeTx.confirmationsLimit
        · rw [if_pos c5] at hs'; cases hs'
        rw [if_neg c5, if_pos rfl, if_pos rfl] at hs'
        by_cases c6 : d.success.length ≥ BridgeTx.confirmationsLimit
        · rw [if_pos c6] at hs'; cases hs'
        rw [if_neg c6] at hs'
        by_cases c7 : BridgeTx.enoughCorroborations s (BridgeTx.addCorr d true hv' a).success.length = true
        · rw [if_pos c7, hr] at hs'
          dsimp only at hs'
          unfold BridgeTx.finalizeState BridgeTx.completeTransaction at hs'
          rw [if_neg (by simp)] at hs'
          dsimp only at hs'
          rw [if_pos (href s.world hP)] at hs'
          cases hs'
        · rw [if_neg c7] at hs'
          injection hs' with hs'
          subst hs'
          exact ⟨by show some q.request = _; rw [hr], hP, [], (List.append_nil _).symm⟩
    · rw [if_neg hv]; exact stay
  | removeActive => exact hx.elim
  | setTxId id => exact stay
  | setInstance v i =>
    show (fun t : BridgeTx.State W => activeRequest t = some (.send r) ∧ P t.world ∧ ∃ more, t.queue = s.queue ++ more)
      (BridgeTx.commit s (BridgeTx.setInstance env s v i))
    refine commit_keeps (Q := fun t => activeRequest t = some (.send r) ∧ P t.world ∧ ∃ more, t.queue = s.queue ++ more) stay ?_
    intro s' hs'
    unfold BridgeTx.setInstance at hs'
    by_cases c1 : v = false
    · rw [if_pos c1] at hs'; cases hs'
    rw [if_neg c1] at hs'
    dsimp only at hs'
    rw [hq] at hs'
    dsimp only at hs'
    rw [hr] at hs'
    dsimp only at hs'
    obtain ⟨h1, h2, h3⟩ := setUpTx_keeps env hs'
    exact ⟨h1, by rw [h2]; exact hP, [], by rw [h3]; exact (List.append_nil _).symm⟩
  | external w avn now block lifetime => exact ⟨ha, hx, [], (List.append_nil _).symm⟩

/-- C113, the general case: as long as the pallet behind the active request refuses its success, no corroboration completes it, the request
stays active and nothing leaves the queue behind it. -/
theorem C113_refused_success_blocks_the_bridge (env : BridgeTx.Env W) (P : W → Prop) (r : BridgeTx.SendReq)
    (href : ∀ w, P w → (env.onResult w r.txId r.callerId true).2 = false) (s : BridgeTx.State W)
    (ha : activeRequest s = some (.send r)) (hP : P s.world) (steps : List (BridgeTx.Step W)) (hx : ∀ x ∈ steps, HonestStep P x) :
    activeRequest (BridgeTx.run env s steps) = some (.send r) ∧ ∃ more, (BridgeTx.run env s steps).queue = s.queue ++ more := by
  induction steps generalizing s with
  | nil => exact ⟨ha, [], (List.append_nil _).symm⟩
  | cons x xs ih =>
    obtain ⟨h1, h2, more, h3⟩ := blocked_step env P r href s ha hP x (hx x (List.mem_cons_self ..))
    obtain ⟨h4, more', h5⟩ := ih (BridgeTx.step env s x) h1 h2 (fun y hy => hx y (List.mem_cons_of_mem _ hy))
    exact ⟨h4, more ++ more', by rw [← List.append_assoc, ← h3]; exact h5⟩

/-- C113 (partial: only if the pallet behind the request takes the result): the corroboration that completes the quorum settles the
request with the outcome corroborated and the bridge goes on: the next request of the queue that can be set up becomes active. -/
theorem C113_corroborated_request_leaves_partial (env : BridgeTx.Env W) (s : BridgeTx.State W) (q : BridgeTx.Active) (r : BridgeTx.SendReq)
    (d : BridgeTx.TxData) (hq : s.active = some q) (hr : q.request = .send r) (hd : q.txData = some d) (author : Nat) (hv : Bool)
    (hin : Avn.isValidator s.avn.validators author = true) (hns : author ≠ d.sender) (hnew : author ∉ d.success ∧ author ∉ d.failure)
    (hlim : (if hv then d.validHash else d.invalidHash).length < BridgeTx.confirmationsLimit ∧ d.success.length < BridgeTx.confirmationsLimit)
    (henough : BridgeTx.enoughCorroborations s (d.success.length + 1) = true)
    (hok : (env.onResult s.world r.txId r.callerId true).2 = true) :
    ∃ t s1, BridgeTx.step env s (.corroborate r.txId true hv author d.replay) = BridgeTx.processNext env s1 ∧
      s1.settled r.txId = some t ∧ t.succeeded = true ∧ s1.world = (env.onResult s.world r.txId r.callerId true).1 ∧ s1.queue = s.queue := by
  have hlen : (BridgeTx.addCorr d true hv author).success.length = d.success.length + 1 := by
    unfold BridgeTx.addCorr
    cases hv <;> simp
  have e : BridgeTx.addCorroboration env s r.txId true hv author d.replay =
      BridgeTx.completeTransaction env s r (BridgeTx.addCorr d true hv author) true := by
    unfold BridgeTx.addCorroboration
    rw [hq]
    dsimp only
    rw [if_neg (by rw [hr]; simp [BridgeTx.Request.idMatches]), hd]
    dsimp only
    rw [if_neg (by simp), if_neg hns, if_neg (by rintro (h | h); exacts [hnew.1 h, hnew.2 h]), if_neg (by omega), if_pos rfl, if_pos rfl,
      if_neg (by omega), hlen, if_pos henough, hr]
    dsimp only
    unfold BridgeTx.finalizeState
    rw [if_neg (by simp)]
  have hstep : BridgeTx.step env s (.corroborate r.txId true hv author d.replay) =
      BridgeTx.commit s (BridgeTx.completeTransaction env s r (BridgeTx.addCorr d true hv author) true) := by
    show (if Avn.isValidator s.avn.validators author then BridgeTx.commit s (BridgeTx.addCorroboration env s r.txId true hv author d.replay) else s) = _
    rw [if_pos hin, e]
  unfold BridgeTx.completeTransaction at hstep
  dsimp only at hstep
  rw [if_neg (by rw [hok]; simp)] at hstep
  refine ⟨_, _, hstep, upd_same _ _ _, rfl, rfl, rfl⟩

/-- The registration of `a` waits for the result of transaction `tx`, and the account is not ready to join. -/
def UnreadyRegistration (E : EPar) (minV tx : Nat) (c : Chain) : Prop :=
  Reach E minV c ∧ ∃ e ∈ c.vm.actions, e.tx = tx ∧ e.status = .awaiting ∧ e.kind = .registration ∧
    ∀ d, c.vm.deposits e.account = some d → ¬ Ready E c e.account d

/-- Validators-manager refuses the success of a registration whose account is not ready. -/
theorem unready_refused {E : EPar} (hE : E.Sane) {minV tx : Nat} {c : Chain} (h : UnreadyRegistration E minV tx c) :
    (onResult E c tx (ascii "author_manager") true).2 = false := by
  obtain ⟨hc, e, he, rfl, hs, hk, hd⟩ := h
  have hdep : ∃ d, c.vm.deposits e.account = some d := by
    obtain ⟨vs, F, sk, steps, h1, rfl⟩ := hc
    obtain ⟨_, _, _, d, _, _, _, h2⟩ := C112_deposit_is_the_requested E hE minV vs F sk h1 steps e he hs hk
    exact ⟨_, h2⟩
  obtain ⟨d, hdd⟩ := hdep
  have hnot : joinOf E c e.account = none := by
    cases hj : joinOf E c e.account with
    | none => rfl
    | some s' => exact absurd ((ready_iff hE hc he hs hk hdd).1 (by rw [hj]; rfl)) (hd d hdd)
  obtain ⟨⟨p, hv⟩, hcore, ag⟩ := hc.inv hE
  have hp := (hv.pend e).1 ⟨he, hs⟩
  have hpart : stakingPart E c e.tx = none := by rw [stakingPart_of E hv hp, if_pos hk]; exact hnot
  unfold onResult
  dsimp only
  rw [beq_self_eq_true, Bool.true_and, if_pos rfl, hpart]
  have := processResult_bad hv hp
  show (Validators.processResult c.vm e.tx true true false).2.isNone = false
  cases hq : (Validators.processResult c.vm e.tx true true false).2 with
  | none => exact absurd hq this
  | some _ => rfl

/-- C113: nothing but the success of a registration whose account is not ready is ever refused: every result for another pallet, every
failure and every removal of a validator is taken. -/
theorem C113_only_unready_registrations_are_refused (E : EPar) (hE : E.Sane) (minV : Nat) (c : Chain) (hc : Reach E minV c) (tx : Nat)
    (caller : List UInt8) (ok : Bool) :
    (onResult E c tx caller ok).2 = false ↔ caller = ascii "author_manager" ∧ ok = true ∧ UnreadyRegistration E minV tx c := by
  constructor
  swap
  · rintro ⟨rfl, rfl, h⟩; exact unready_refused hE h
  intro h
  unfold onResult at h
  dsimp only at h
  by_cases hm : caller = ascii "author_manager"
  swap
  · exfalso
    have : (caller == ascii "author_manager") = false := by simpa using hm
    rw [this] at h
    simp only [Bool.false_and, Bool.false_eq_true, if_false] at h
    unfold Validators.processResult at h
    simp at h
  have hmb : (caller == ascii "author_manager") = true := by simpa using hm
  rw [hmb, Bool.true_and] at h
  refine ⟨hm, ?_⟩
  obtain ⟨⟨p, hv⟩, hcore, ag⟩ := hc.inv hE
  cases ht : c.vm.txMap tx with
  | none =>
    exfalso
    unfold Validators.processResult at h
    rw [ht] at h
    simp at h
  | some q =>
    obtain ⟨a, i⟩ := q
    obtain ⟨e, hp, h1, h2, h3, h4⟩ := hv.pending ht
    subst h1
    cases ok with
    | false =>
      exfalso
      simp only [Bool.false_eq_true, if_false, Option.isSome_some] at h
      rcases processResult_fail hv hp true with ⟨hk, k, hr, hq⟩ | ⟨hk, hq⟩
      · rw [hq] at h; cases h
      · rw [hq] at h; cases h
    | true =>
      refine ⟨rfl, ?_⟩
      rw [if_pos rfl] at h
      obtain ⟨he, hs⟩ := (hv.pend e).2 hp
      have hgood : stakingPart E c e.tx = none := by
        cases hq : stakingPart E c e.tx with
        | none => rfl
        | some s' =>
          exfalso
          rw [hq] at h
          rcases processResult_good hv hp with ⟨_, q⟩ | ⟨_, k, _, q⟩
          · have h : (Validators.processResult c.vm e.tx true true true).2.isNone = false := h
            rw [q] at h; cases h
          · have h : (Validators.processResult c.vm e.tx true true true).2.isNone = false := h
            rw [q] at h; cases h
      rw [stakingPart_of E hv hp] at hgood
      rcases (hv.pok e hp).2.2.2 with ⟨hk, _⟩ | ⟨hk, hmem, _⟩
      · rw [if_pos hk] at hgood
        refine ⟨hc, e, he, rfl, hs, hk, ?_⟩
        intro d hd hr
        have := (ready_iff hE hc he hs hk hd).2 hr
        rw [hgood] at this; cases this
      · exfalso
        have hne : e.kind ≠ .registration := by rw [hk]; decide
        rw [if_neg hne] at hgood
        obtain ⟨s', hs'⟩ := scheduleLeave_some ((ag.reg e.account).1 hmem)
        rw [hs'] at hgood; cases hgood

/-- C113: the corroboration that completes the quorum for a failure always settles the request as failed, or, if as many authors found
the transaction hash invalid, sends it again. -/
theorem C113_corroborated_failure_is_settled (E : EPar) (hE : E.Sane) (minV : Nat) (env : BridgeTx.Env Chain)
    (henv : env.onResult = onResult E) (s : BridgeTx.State Chain) (hc : Reach E minV s.world) (q : BridgeTx.Active) (r : BridgeTx.SendReq)
    (d : BridgeTx.TxData) (hq : s.active = some q) (hr : q.request = .send r) (hd : q.txData = some d) (author : Nat) (hv : Bool)
    (hin : Avn.isValidator s.avn.validators author = true) (hns : author ≠ d.sender) (hnew : author ∉ d.success ∧ author ∉ d.failure)
    (hlim : (if hv then d.validHash else d.invalidHash).length < BridgeTx.confirmationsLimit ∧ d.failure.length < BridgeTx.confirmationsLimit)
    (henough : BridgeTx.enoughCorroborations s (d.failure.length + 1) = true) :
    (BridgeTx.enoughCorroborations s (d.invalidHash.length + (if hv then 0 else 1)) = false →
      ∃ t s1, BridgeTx.step env s (.corroborate r.txId false hv author d.replay) = BridgeTx.processNext env s1 ∧
        s1.settled r.txId = some t ∧ t.succeeded = false ∧ s1.world = (env.onResult s.world r.txId r.callerId false).1 ∧
        s1.queue = s.queue) ∧
    (BridgeTx.enoughCorroborations s (d.invalidHash.length + (if hv then 0 else 1)) = true →
      BridgeTx.step env s (.corroborate r.txId false hv author d.replay) =
        BridgeTx.commit s (BridgeTx.setUpTx env s r (min (d.replay + 1) 65535))) := by
  have hlen : (BridgeTx.addCorr d false hv author).failure.length = d.failure.length + 1 := by
    unfold BridgeTx.addCorr
    cases hv <;> simp
  have hinv : (BridgeTx.addCorr d false hv author).invalidHash.length = d.invalidHash.length + (if hv then 0 else 1) := by
    unfold BridgeTx.addCorr
    cases hv <;> simp
  have hrep : (BridgeTx.addCorr d false hv author).replay = d.replay := by
    unfold BridgeTx.addCorr
    cases hv <;> rfl
  have e : BridgeTx.addCorroboration env s r.txId false hv author d.replay =
      BridgeTx.finalizeState env s r (BridgeTx.addCorr d false hv author) false := by
    unfold BridgeTx.addCorroboration
    rw [hq]
    dsimp only
    rw [if_neg (by rw [hr]; simp [BridgeTx.Request.idMatches]), hd]
    dsimp only
    rw [if_neg (by simp), if_neg hns, if_neg (by rintro (h | h); exacts [hnew.1 h, hnew.2 h]), if_neg (by omega), if_neg Bool.false_ne_true,
      if_neg Bool.false_ne_true, if_neg (by omega), hlen, if_pos henough, hr]
  have hstep : BridgeTx.step env s (.corroborate r.txId false hv author d.replay) =
      BridgeTx.commit s (BridgeTx.finalizeState env s r (BridgeTx.addCorr d false hv author) false) := by
    show (if Avn.isValidator s.avn.validators author then BridgeTx.commit s (BridgeTx.addCorroboration env s r.txId false hv author d.replay) else s) = _
    rw [if_pos hin, e]
  have hok : (env.onResult s.world r.txId r.callerId false).2 = true := by
    cases hb : (env.onResult s.world r.txId r.callerId false).2 with
    | true => rfl
    | false =>
      rw [henv] at hb
      have := ((C113_only_unready_registrations_are_refused E hE minV s.world hc r.txId r.callerId false).1 hb).2.1
      cases this
  unfold BridgeTx.finalizeState at hstep
  rw [hinv, hrep] at hstep
  constructor
  · intro h
    rw [if_neg (by rw [h]; simp)] at hstep
    unfold BridgeTx.completeTransaction at hstep
    dsimp only at hstep
    rw [if_neg (by rw [hok]; simp)] at hstep
    exact ⟨_, _, hstep, upd_same _ _ _, rfl, rfl, rfl⟩
  · intro h
    rw [if_pos (by rw [h]; rfl)] at hstep
    exact hstep

/-- C113 does not hold as stated: while a registrant whose transaction succeeded on Ethereum keeps itself unready (it nominates somebody, or
has spent the deposit, or removed its session keys), the registration stays the active request whatever the authors do, and every
request queued after it (lowers, summaries, other pallets) waits. -/
theorem C113_unready_registration_blocks_the_bridge (E : EPar) (hE : E.Sane) (minV : Nat) (env : BridgeTx.Env Chain)
    (henv : env.onResult = onResult E) (r : BridgeTx.SendReq) (hcaller : r.callerId = ascii "author_manager") (s : BridgeTx.State Chain)
    (ha : activeRequest s = some (.send r)) (hw : UnreadyRegistration E minV r.txId s.world) (steps : List (BridgeTx.Step Chain))
    (hx : ∀ x ∈ steps, HonestStep (UnreadyRegistration E minV r.txId) x) :
    activeRequest (BridgeTx.run env s steps) = some (.send r) ∧ ∃ more, (BridgeTx.run env s steps).queue = s.queue ++ more :=
  C113_refused_success_blocks_the_bridge env (UnreadyRegistration E minV r.txId) r
    (fun w hw => by rw [henv, hcaller]; exact unready_refused hE hw) s ha hw steps hx

/-! ### A concrete bridge -/

/-- The registrant of `joining` nominates collator 1 before the result arrives. -/
def stuck5 : Chain := run Staking.smallE 2 chain0 (joining ++ [.staking (.ledger (.nominate 5 1 50 10 10))])

theorem stuck5_unready : UnreadyRegistration Staking.smallE 2 0 stuck5 := by
  refine ⟨⟨_, _, _, joining ++ [.staking (.ledger (.nominate 5 1 50 10 10))], chain0_start, rfl⟩,
    ⟨5, 1, .awaiting, 0, .registration⟩, by decide +kernel, rfl, rfl, rfl, ?_⟩
  intro d _ hx
  have h1 := hx.notNominator
  have h2 : (stuck5.stk.led.noms 5).isSome = true := by decide +kernel
  rw [h1] at h2
  cases h2

/-- The runtime of the example. -/
def smallEnv : BridgeTx.Env Chain where
  validUtf8 := fun _ => true
  fnHash := fun _ _ _ => some 7
  lowerHash := fun _ _ => some 8
  signer := fun _ _ => none
  onResult := onResult Staking.smallE
  onLower := fun w _ _ _ => (w, true)
  maxQueued := 100

/-- The request of the registration. -/
def reg5 : BridgeTx.SendReq := { txId := 0, name := ascii "addAuthor", params := [], callerId := ascii "author_manager" }

/-- The bridge with four authors while the registration is its active request, sent by author 1 and corroborated by author 2; another
request is queued behind it. -/
def bridge5 (w : Chain) : BridgeTx.State Chain :=
  { BridgeTx.initial w ⟨[⟨1, 11⟩, ⟨2, 12⟩, ⟨3, 13⟩, ⟨4, 14⟩], 0⟩ 2 with
    active := some {
      request := .send reg5, msgHash := 7, confirmations := [], lastUpdated := 0
      txData := some { params := [], sender := 1, expiry := 0, ethTxHash := 9, success := [], failure := [], validHash := [], invalidHash := [], replay := 0 } }
    queue := [.send { txId := 1, name := ascii "publishRoot", params := [], callerId := ascii "summary" }] }

/-- All authors corroborate the success, again and again: nothing changes. -/
example : ∀ n, activeRequest (BridgeTx.run smallEnv (bridge5 stuck5)
    ((List.range n).map fun i => .corroborate 0 true true (2 + i % 3) 0)) = some (.send reg5) := by
  intro n
  refine (C113_unready_registration_blocks_the_bridge Staking.smallE Staking.smallE_sane 2 smallEnv rfl reg5 rfl (bridge5 stuck5) rfl
    stuck5_unready _ ?_).1
  intro x hx
  obtain ⟨i, _, rfl⟩ := List.mem_map.1 hx
  exact rfl

/-- If the account is still ready, the first corroboration (one of three suffices) completes the registration and the next request
follows. -/
example : (BridgeTx.run smallEnv (bridge5 waiting5) [.corroborate 0 true true 2 0]).world.vm.validators = [1, 2, 3, 5] ∧
    (activeRequest (BridgeTx.run smallEnv (bridge5 waiting5) [.corroborate 0 true true 2 0])).map (fun r => r.idMatches 1) = some true ∧
    BridgeTx.enoughCorroborations (bridge5 waiting5) 1 = true ∧ (onResult Staking.smallE waiting5 0 (ascii "author_manager") true).2 = true := by
  decide +kernel

/-- The stuck registration of `stuck5` can be settled as failed: the hypotheses of `C113_corroborated_failure_is_settled` hold. -/
example : (BridgeTx.run smallEnv (bridge5 stuck5) [.corroborate 0 false true 2 0]).world.vm.actions = [] ∧
    BridgeTx.enoughCorroborations (bridge5 stuck5) 1 = true ∧ BridgeTx.enoughCorroborations (bridge5 stuck5) 0 = false ∧
    (onResult Staking.smallE stuck5 0 (ascii "author_manager") true).2 = false := by decide +kernel

end Verif.Membership
