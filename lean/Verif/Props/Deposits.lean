import Verif.Lemmas.Deposits2

/-!
# C90: an Ethereum event has its effect at most once, whichever of the two paths brings it

The two bridge pallets and the token manager run side by side (`Model/Deposits.lean`). The specification below speaks of
the ghost trace: the sequence of everything that was done to the token manager.
-/

namespace Verif.Deposits

open Verif Verif.Lower

variable (decode : Nat → TokenManager.EventData)

/-- A chain specification: authors, validators, the filter of the older pallet, the lifts it starts with. -/
structure Genesis where
  tm : TokenManager.State
  env : TokenManager.Env
  authors : List Nat
  rangeSize : Nat
  quorumFactor : Nat
  period : Nat
  lifts : List Nat
  validators : List Avn.Validator
  filter : List Events.ValidEvent
  distinct : lifts.Nodup
  factor : quorumFactor ≠ 0

/-- The system after a history. -/
def Genesis.after (g : Genesis) (steps : List Step) : State :=
  run decode (initial g.tm g.env g.authors g.rangeSize g.quorumFactor g.period g.lifts g.validators g.filter) steps

/-- What was done to the token manager so far. -/
def State.trace (s : State) : List Entry := s.bridge.world.trace
/-- The token manager. -/
def State.tm (s : State) : TokenManager.State := s.bridge.world.tm

theorem Genesis.inv (g : Genesis) (steps : List Step) : Inv decode g.tm (g.after decode steps) :=
  inv_run decode (inv_initial decode g.tm g.env g.authors g.rangeSize g.quorumFactor g.period g.lifts g.validators g.filter)
    steps

theorem Genesis.legacy (g : Genesis) (steps : List Step) : EthEvents.Inv (g.after decode steps).legacy :=
  legacy_inv_run decode (inv_initial decode g.tm g.env g.authors g.rangeSize g.quorumFactor g.period g.lifts g.validators
      g.filter)
    (EthEvents.genesis_inv ⟨g.quorumFactor, g.period, g.lifts, fun _ => none, g.validators, g.filter, _, g.distinct, g.factor⟩)
    steps

/-- **C90, the token manager is exactly what the trace says.** Its state is the result of the recorded steps, and each
recorded step is the delivery of an Ethereum event or an ordinary call, none of which is a lift, a refund or a deposit. -/
theorem C90_only_recorded_steps (g : Genesis) (steps : List Step) :
    (g.after decode steps).tm = TokenManager.run g.tm (tmSteps decode (g.after decode steps).trace) ∧
      ∀ env st, Entry.call env st ∈ (g.after decode steps).trace →
        (∀ d, st ≠ .event d) ∧ (∀ t r a, st ≠ .interfaceLift t r a) ∧ (∀ t r a, st ≠ .depositTokens t r a) := by
  have h := (g.inv decode steps).faithful
  refine ⟨h.replay, ?_⟩
  intro env st hm
  have ho := h.calls env st hm
  refine ⟨?_, ?_, ?_⟩ <;> intros <;> rintro rfl <;> simp [ordinary] at ho

/-- **C90, once.** No Ethereum transaction is delivered twice, not by one path and not by the two together. -/
theorem C90_each_transaction_once (g : Genesis) (steps : List Step) : (hashes (g.after decode steps).trace).Nodup :=
  (g.inv decode steps).nodup

/-- A step only appends to the trace, and delivers only transactions not recorded as processed. -/
theorem trace_step (s : State) (tm0 : TokenManager.State) (h : Inv decode tm0 s) (st : Step) :
    (∃ add, (step decode s st).trace = s.trace ++ add ∧ ∀ x ∈ hashes add, s.bridge.processed x = none) ∧
      ∀ x, (s.bridge.processed x).isSome = true → ((step decode s st).bridge.processed x).isSome = true := by
  cases st with
  | block n vs => exact ⟨⟨[], by simp [State.trace, step, hashes]⟩, fun _ h => h⟩
  | token env st =>
    simp only [step]
    by_cases ho : ordinary st = true
    · rw [if_pos ho]; exact ⟨⟨[.call env st], by simp [State.trace, hashes]⟩, fun _ h => h⟩
    · rw [if_neg ho]; exact ⟨⟨[], by simp [hashes]⟩, fun _ h => h⟩
  | bridge envs op =>
    obtain ⟨new, hlog, hworld, -⟩ := EthBridge.step_applies (bridgeHandler decode)
      { s.bridge with world := { s.bridge.world with envs := envs } } op.toStep (op_not_external op)
    obtain ⟨new', hlog', hmono, hnd, hnew⟩ := EthBridge.step_grow (bridgeHandler decode)
      { s.bridge with world := { s.bridge.world with envs := envs } } op.toStep
    have : new' = new := by rw [hlog] at hlog'; exact (List.append_cancel_left hlog').symm
    subst this
    obtain ⟨add, h1, h2, -⟩ := applyHandled_trace decode { s.bridge.world with envs := envs } new'
    refine ⟨⟨add, ?_, ?_⟩, hmono⟩
    · show World.trace (EthBridge.step (bridgeHandler decode)
        { s.bridge with world := { s.bridge.world with envs := envs } } op.toStep).world = _
      rw [hworld]; exact h1
    · intro x hx; rw [h2] at hx; exact (hnew x hx).1
  | legacy envs nftOk op =>
    refine ⟨?_, ?_⟩
    · have hc := legacy_cases decode
        { s.legacy with world := { s.legacy.world with envs := envs, nftOk := nftOk } } op
      have htr : s.legacy.world.trace = s.trace := by rw [h.world]; rfl
      rcases hc with ⟨hw, _⟩ | ⟨id, p, named, hid, hlp, hnone, hmark, hw, hlog⟩
      · refine ⟨[], ?_, by simp [hashes]⟩
        show World.trace (EthEvents.step (legacyHandler decode)
          { s.legacy with world := { s.legacy.world with envs := envs, nftOk := nftOk } } op.toStep).world = _
        rw [hw, ← htr]; simp
      · obtain ⟨-, hpid⟩ := EthEvents.lastPending_mem hlp
        have hpid' : p.check.event.id = id := hpid
        refine ⟨[.eth .legacy (toBridge p.check.event) (envs (toBridge p.check.event)) s.legacy.world.tm.avtContract
          (TokenManager.step (envs (toBridge p.check.event)) s.legacy.world.tm
            (.event (decode (toBridge p.check.event).payload))).2.isNone], ?_, ?_⟩
        · show World.trace (EthEvents.step (legacyHandler decode)
          { s.legacy with world := { s.legacy.world with envs := envs, nftOk := nftOk } } op.toStep).world = _
          rw [hw, ← htr]; rfl
        · intro x hx
          have hx' : x = id.txHash := by simpa [hashes, toBridge, hpid'] using hx
          subst hx'
          have hn : s.legacy.processed id.txHash = none := hnone
          rw [h.processed] at hn
          simpa [view] using hn
    · intro x hx
      show ((recordOp _ _ _ op).processed x).isSome = true
      unfold recordOp
      cases op.target with
      | none => exact hx
      | some id => exact record_mono _ _ _ _ _ hx

theorem Genesis.after_snoc (g : Genesis) (l : List Step) (st : Step) :
    g.after decode (l ++ [st]) = step decode (g.after decode l) st := run_snoc ..

/-- **C90, recorded means never again.** Once a transaction is recorded as processed (because either path delivered it,
because its event was refused, or by migration), no continuation of the history delivers it, by whichever path. -/
theorem C90_recorded_transaction_has_no_effect (g : Genesis) (pre post : List Step) :
    ∃ add, (g.after decode (pre ++ post)).trace = (g.after decode pre).trace ++ add ∧
      ∀ x, ((g.after decode pre).bridge.processed x).isSome = true →
        x ∉ hashes add ∧ ((g.after decode (pre ++ post)).bridge.processed x).isSome = true := by
  induction post using List.reverseRecOn with
  | nil => exact ⟨[], by simp, by simp [hashes]⟩
  | append_singleton post st ih =>
    obtain ⟨add, h1, h2⟩ := ih
    obtain ⟨⟨more, h3, h4⟩, h5⟩ := trace_step decode (g.after decode (pre ++ post)) g.tm (g.inv decode _) st
    rw [← List.append_assoc, g.after_snoc]
    refine ⟨add ++ more, by rw [h3, h1, List.append_assoc], ?_⟩
    intro x hx
    obtain ⟨ha, hb⟩ := h2 x hx
    refine ⟨?_, h5 x hb⟩
    rw [hashes_append, List.mem_append]
    rintro (hm | hm)
    · exact ha hm
    · rw [h4 x hm] at hb; simp at hb

/-- **C90, supply.** For every token other than the native one: what exists, plus what was lowered, is what existed at
genesis plus the amounts of the distinct Ethereum deposits (and refunds) delivered successfully, each counted once. -/
theorem C90_supply_is_backed_by_distinct_deposits (g : Genesis) (steps : List Step) (t : Addr) (n : Nat)
    (h : TokenManager.Supply g.tm t n) :
    ∃ m, TokenManager.Supply (g.after decode steps).tm t m ∧
      m + TokenManager.burnedRun g.tm t (tmSteps decode (g.after decode steps).trace) =
        n + ((g.after decode steps).trace.map (credit decode t)).sum ∧
      (hashes (g.after decode steps).trace).Nodup := by
  have hf := (g.inv decode steps).faithful
  obtain ⟨m, h1, h2⟩ := TokenManager.C01_supply_history (tmSteps decode (g.after decode steps).trace) g.tm t n h
  refine ⟨m, ?_, ?_, (g.inv decode steps).nodup⟩
  · rw [(C90_only_recorded_steps decode g steps).1]; exact h1
  · rw [h2]; congr 1; exact hf.minted t

/-- **C90, the bridge path.** An event delivered by the bridge was contained in a partition for which, in the transaction
that delivered it, a quorum of the authors of that moment had voted, each while being an author. -/
theorem C90_bridge_path_needs_quorum (g : Genesis) (steps : List Step) (e : EthBridge.EthEvent) (env : TokenManager.Env)
    (native : Addr) (ok : Bool) (h : Entry.eth .bridge e env native ok ∈ (g.after decode steps).trace) :
    ∃ pre envs op post p, steps = pre ++ .bridge envs op :: post ∧ (∃ d ∈ p.events, d.event = e) ∧
      ∃ voters : List Nat, voters.Nodup ∧
        Avn.requiredFor (g.after decode pre).bridge.authors.length ≤ voters.length ∧
        ∀ a ∈ voters, Voted decode (g.after decode []) (pre ++ [.bridge envs op]) a p := by
  have hl := (g.inv decode steps).bridgeLog e env native ok h
  obtain ⟨pre, envs, op, post, new, hs, hmem, hlog⟩ := bridge_log_origin decode (g.after decode []) rfl steps _ hl
  obtain ⟨p, hp, hd⟩ := EthBridge.C13_events_only_from_approved_partitions _ _ _ e new hlog hmem
  obtain ⟨im, ic⟩ := votes_run decode (g.after decode []) rfl pre
  obtain ⟨voters, h1, h2, h3⟩ := EthBridge.approval_step (bridgeHandler decode)
    { (run decode (g.after decode []) pre).bridge with
      world := { (run decode (g.after decode []) pre).bridge.world with envs := envs } } im _ p new hlog hp
  refine ⟨pre, envs, op, post, p, hs, hd, voters, h1, h2, ?_⟩
  intro a ha
  rcases h3 a ha with ⟨vs, hv, hav⟩ | ⟨ho, hauth, hok⟩
  · exact (ic p vs a hv hav).mono decode _
  · rw [toStep_submit ho]; exact ⟨pre, envs, [], rfl, hauth, hok⟩

theorem legacy_effect (s : State) (hi : EthEvents.Inv s.legacy) (hsync : s.legacy.processed = view s.bridge.processed)
    (envs : EthBridge.EthEvent → TokenManager.Env) (nftOk : EthBridge.EthEvent → Bool) (op : LegacyOp)
    (new : List (Nat × EthEvents.Obs))
    (hlog : (EthEvents.step (legacyHandler decode)
        { s.legacy with world := { s.legacy.world with envs := envs, nftOk := nftOk } } op.toStep).log = s.legacy.log ++ new)
    (now : Nat) (le : EthEvents.EthEvent) (hmem : (now, EthEvents.Obs.handled le) ∈ new) :
    ∃ counter v sig, op = .process le.id counter v sig ∧ Avn.isValidator s.legacy.validators v = true ∧
      s.bridge.processed (toBridge le).txHash = none ∧
      ∃ b checker k period minVotes,
        (b, EthEvents.Obs.validated le .ok checker k period minVotes) ∈ s.legacy.log ∧ b + period < s.legacy.block ∧
        min (EthEvents.openChallengers s.legacy.log le.id).length 50 ≤
          max minVotes (s.legacy.validators.length / s.legacy.quorumFactor) := by
  have hi' : EthEvents.Inv { s.legacy with world := { s.legacy.world with envs := envs, nftOk := nftOk } } :=
    ⟨hi.nodup, hi.known, hi.once, hi.traced, hi.chal, hi.distinct, hi.first⟩
  obtain ⟨⟨counter, v, sig, ht, hv⟩, hnow, hnone, b, checker, k, period, mv, h1, h2, h3⟩ :=
    EthEvents.effect_step (handler := legacyHandler decode) hi' op.toStep new hlog now le hmem
  have hop : op = .process le.id counter v sig := by
    cases op <;> simp [LegacyOp.toStep] at ht ⊢
    exact ht
  have hn : s.legacy.processed le.id.txHash = none := hnone
  rw [hsync] at hn
  refine ⟨counter, v, sig, hop, hv, by simpa [view, toBridge] using hn, b, checker, k, period, mv, h1, ?_, h3⟩
  rw [hnow] at h2; exact h2

/-- **C90, the other path.** An event delivered by the older pallet was processed by a current validator, strictly after the
challenge period since some validator's `Ok` result for exactly this event, with too few challengers, and neither path had
recorded the transaction before. -/
theorem C90_legacy_path_needs_window (g : Genesis) (steps : List Step) (e : EthBridge.EthEvent) (env : TokenManager.Env)
    (native : Addr) (ok : Bool) (h : Entry.eth .legacy e env native ok ∈ (g.after decode steps).trace) :
    ∃ le, toBridge le = e ∧ ∃ pre envs nftOk counter v sig post,
      steps = pre ++ .legacy envs nftOk (.process le.id counter v sig) :: post ∧
      Avn.isValidator (g.after decode pre).legacy.validators v = true ∧
      (g.after decode pre).bridge.processed e.txHash = none ∧
      ∃ b checker k period minVotes,
        (b, EthEvents.Obs.validated le .ok checker k period minVotes) ∈ (g.after decode pre).legacy.log ∧
        b + period < (g.after decode pre).legacy.block ∧
        min (EthEvents.openChallengers (g.after decode pre).legacy.log le.id).length 50 ≤
          max minVotes ((g.after decode pre).legacy.validators.length / (g.after decode pre).legacy.quorumFactor) := by
  obtain ⟨now, le, hl, he⟩ := (g.inv decode steps).legacyLog e env native ok h
  obtain ⟨pre, envs, nftOk, op, post, new, hs, hmem, hlog⟩ := legacy_log_origin decode (g.after decode []) rfl steps _ hl
  obtain ⟨counter, v, sig, hop, r⟩ :=
    legacy_effect decode (g.after decode pre) (g.legacy decode pre) (g.inv decode pre).processed envs nftOk op new hlog now le hmem
  subst he
  exact ⟨le, rfl, pre, envs, nftOk, counter, v, sig, post, by rw [hs, hop], r⟩

/-- An `accepted` report of the older pallet comes from a delivery whose handler succeeded. -/
theorem accepted_step {W : Type} {handler : EthEvents.EthEvent → W → W × Bool} (s : EthEvents.State W) (t : EthEvents.Step W)
    (new : List (Nat × EthEvents.Obs)) (hnew : (EthEvents.step handler s t).log = s.log ++ new) (now : Nat)
    (id : EthEvents.EventId) (hx : (now, EthEvents.Obs.accepted id) ∈ new) :
    ∃ e, e.id = id ∧ (handler e s.world).2 = true ∧ (EthEvents.step handler s t).world = (handler e s.world).1 := by
  have nolog : ∀ s' : EthEvents.State W, s'.log = s.log ++ new → ∀ es : List (Nat × EthEvents.Obs),
      s'.log = s.log ++ es → new = es := by
    intro s' h1 es h2
    rw [h1] at h2
    exact List.append_cancel_left h2
  have v := EthEvents.step_view (handler := handler) s t
  generalize EthEvents.step handler s t = s' at v hnew
  cases v with
  | frame s' hu hp hpr hc hq hi hf hl => rw [nolog _ hnew [] (by simp [hl])] at hx; simp at hx
  | period p hp => rw [nolog _ hnew _ rfl] at hx; simp at hx
  | bridge tx acc hne => rw [nolog _ hnew [] (by simp)] at hx; simp at hx
  | added ty tx a nonces hf hpr hxx hlen h0 => rw [nolog _ hnew _ rfl] at hx; simp at hx
  | submitted c counter hv hex hb hs => rw [nolog _ hnew _ rfl] at hx; simp at hx
  | challenged id by_ counter p hv hp hself hdup => rw [nolog _ hnew _ rfl] at hx; simp at hx
  | refused id' named p hp hb hr hv =>
    exfalso
    rw [nolog _ hnew _ (EthEvents.refused_log s p id' named)] at hx
    unfold EthEvents.settleNew at hx
    revert hx
    split_ifs <;> simp
  | delivered id' named p hp hb hr hc hn hv =>
    have hpid : p.check.event.id = id' := (EthEvents.lastPending_mem hp).2
    have hw : (EthEvents.settle s p id' named).world = s.world := rfl
    have hl : new = ((([EthEvents.Obs.processed id' named ((s.processed id'.txHash).isNone && !EthEvents.challengeSuccessful s p.check)] ++
        (if EthEvents.challengeSuccessful s p.check = true then
          [.challengeSucceeded id' p.check.result, .offence [p.check.checkedBy]]
         else if s.challenges id' = [] then [] else [.offence (s.challenges id')]) ++
        [.handled p.check.event, if (handler p.check.event s.world).2 = true then .accepted id' else
          .rejected id' p.check.result false]) : List EthEvents.Obs)).map (fun o => (s.block, o)) := by
      refine nolog _ hnew _ ?_
      simp only [EthEvents.deliver, EthEvents.emit, EthEvents.settle, List.map_append, List.append_assoc]
    rw [hl] at hx
    refine ⟨p.check.event, ?_⟩
    by_cases hok : (handler p.check.event s.world).2 = true
    · rw [if_pos hok] at hx
      refine ⟨?_, hok, rfl⟩
      revert hx
      rw [hpid]
      split_ifs <;> simp +contextual
    · rw [if_neg hok] at hx
      exfalso
      revert hx
      split_ifs <;> simp

/-- **C90, a reported acceptance is true.** When the older pallet reports an event as accepted, the token manager carried it
out: the trace holds this event, delivered by this path, with success. -/
theorem C90_accepted_means_carried_out (g : Genesis) (steps : List Step) (now : Nat) (id : EthEvents.EventId)
    (h : (now, EthEvents.Obs.accepted id) ∈ (g.after decode steps).legacy.log) :
    ∃ e env native, Entry.eth .legacy e env native true ∈ (g.after decode steps).trace ∧
      e.txHash = id.txHash ∧ e.signature = id.signature := by
  obtain ⟨pre, envs, nftOk, op, post, new, hs, hmem, hlog⟩ := legacy_log_origin decode (g.after decode []) rfl steps _ h
  obtain ⟨e, hid, hok, hw⟩ := accepted_step (handler := legacyHandler decode) _ op.toStep new hlog now id hmem
  have hafter : g.after decode (pre ++ [.legacy envs nftOk op]) = step decode (g.after decode pre) (.legacy envs nftOk op) :=
    g.after_snoc decode pre _
  have hin : Entry.eth .legacy (toBridge e) (envs (toBridge e)) (g.after decode pre).legacy.world.tm.avtContract true ∈
      (g.after decode (pre ++ [.legacy envs nftOk op])).trace := by
    rw [hafter]
    show _ ∈ World.trace (EthEvents.step (legacyHandler decode)
      { (g.after decode pre).legacy with
        world := { (g.after decode pre).legacy.world with envs := envs, nftOk := nftOk } } op.toStep).world
    have hw' : (EthEvents.step (legacyHandler decode)
      { (g.after decode pre).legacy with
        world := { (g.after decode pre).legacy.world with envs := envs, nftOk := nftOk } } op.toStep).world = _ := hw
    rw [hw']
    simp only [legacyHandler, apply, Bool.and_eq_true] at hok ⊢
    exact List.mem_append_right _ (List.mem_singleton.2 (by rw [hok.1]; rfl))
  obtain ⟨add, hadd, -⟩ := C90_recorded_transaction_has_no_effect decode g (pre ++ [.legacy envs nftOk op]) post
  refine ⟨toBridge e, envs (toBridge e), (g.after decode pre).legacy.world.tm.avtContract, ?_, by simp [toBridge, hid], by simp [toBridge, hid]⟩
  rw [hs, show pre ++ Step.legacy envs nftOk op :: post = (pre ++ [.legacy envs nftOk op]) ++ post by simp, hadd]
  exact List.mem_append_left _ hin

/-- **C90, both pallets agree.** At all times the two pallets see the same set of processed transactions and the same
token manager. -/
theorem C90_one_record (g : Genesis) (steps : List Step) (h : Nat) :
    (g.after decode steps).legacy.processed h = ((g.after decode steps).bridge.processed h).map Prod.snd ∧
      (g.after decode steps).legacy.world = (g.after decode steps).bridge.world :=
  ⟨by rw [(g.inv decode steps).processed]; rfl, (g.inv decode steps).world⟩

/-! ### A concrete history -/

/-- An account. -/
def exAcct : Acct := Vector.replicate 32 7
/-- A token. -/
def exTok : Addr := Vector.replicate 20 1
/-- Payload 5 is a lift of 100. -/
def exDecode (n : Nat) : TokenManager.EventData := if n = 5 then .lifted exTok exAcct 100 else .other
/-- An unremarkable environment. -/
def exEnv : TokenManager.Env where
  crypto := { verifySr := fun _ _ _ => true, recoverEcdsa := fun _ _ => none }
  frozen := fun _ => 0
  scheduleOk := true
  bridgeOk := true
  eventKnown := true
  now := 0
  treasury := Vector.replicate 32 9
  growthPct := 0
  growthHandler := fun _ _ f => (f, true)
/-- Empty token manager. -/
def exTm : TokenManager.State where
  bal := fun _ _ => 0
  avt := fun _ => 0
  nonce := fun _ => 0
  lowerNonce := 0
  scheduled := fun _ => none
  pending := fun _ => none
  ready := fun _ => none
  failed := fun _ => none
  lowersDisabled := false
  avtContract := Vector.replicate 20 2
  lowerPeriod := 10
/-- Four authors, two validators of the older pallet, whose filter accepts lifts. -/
def exGenesis : Genesis :=
  ⟨exTm, exEnv, [1, 2, 3, 4], 10, 4, 60, [], [⟨1, 11⟩, ⟨2, 12⟩], [.lifted], by simp, by simp⟩
/-- The lift, as the bridge sees it and as the older pallet does. -/
def exEvent : EthBridge.EthEvent := ⟨Events.signature .lifted, 77, 5⟩
/-- See `exEvent`. -/
def exLegacyEvent : EthEvents.EthEvent := ⟨⟨Events.signature .lifted, 77⟩, 5⟩
/-- The partition holding it. -/
def exPart : EthBridge.Partition := ⟨⟨100, 10⟩, 0, true, [⟨exEvent, 104⟩]⟩
/-- The lift is announced and checked at the older pallet, then voted and delivered by the bridge, then (after the challenge
period) processed at the older pallet. -/
def exSteps : List Step :=
  let e := fun _ => exEnv
  let n := fun _ => true
  [.block 1 [⟨1, 11⟩, ⟨2, 12⟩], .legacy e n (.addLog .lifted 77 5),
   .legacy e n (.submit ⟨exLegacyEvent, .ok, 2, 1, 0, 0⟩ 1 2 true true),
   .bridge e (.submitBlock 1 158), .bridge e (.submitBlock 2 151),
   .bridge e (.submitEvents 1 exPart), .bridge e (.submitEvents 2 exPart),
   .block 100 [⟨1, 11⟩, ⟨2, 12⟩], .legacy e n (.process exLegacyEvent.id 1 1 true)]
/-- The same without the bridge's votes. -/
def exSteps2 : List Step :=
  let e := fun _ => exEnv
  let n := fun _ => true
  [.block 1 [⟨1, 11⟩, ⟨2, 12⟩], .legacy e n (.addLog .lifted 77 5),
   .legacy e n (.submit ⟨exLegacyEvent, .ok, 2, 1, 0, 0⟩ 1 2 true true),
   .block 100 [⟨1, 11⟩, ⟨2, 12⟩], .legacy e n (.process exLegacyEvent.id 1 1 true),
   .bridge e (.submitBlock 1 158), .bridge e (.submitBlock 2 151),
   .bridge e (.submitEvents 1 exPart), .bridge e (.submitEvents 2 exPart)]

/-- Whichever path is first, the deposit is credited once and the other path has no effect. -/
example : hashes (exGenesis.after exDecode exSteps).trace = [77] ∧
    (exGenesis.after exDecode exSteps).tm.bal exTok exAcct = 100 ∧
    (exGenesis.after exDecode exSteps).legacy.pending = [] ∧
    ((exGenesis.after exDecode exSteps).trace.map (credit exDecode exTok)).sum = 100 := by decide +kernel

example : hashes (exGenesis.after exDecode exSteps2).trace = [77] ∧
    (exGenesis.after exDecode exSteps2).tm.bal exTok exAcct = 100 ∧
    EthBridge.approvedOf (exGenesis.after exDecode exSteps2).bridge.log = [exPart] ∧
    ((exGenesis.after exDecode exSteps2).trace.map (credit exDecode exTok)).sum = 100 := by decide +kernel

example : TokenManager.Supply exGenesis.tm exTok 0 := ⟨∅, by simp [exGenesis, exTm]⟩

end Verif.Deposits
