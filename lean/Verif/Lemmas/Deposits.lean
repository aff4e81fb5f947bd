import Verif.Model.Deposits
import Verif.Props.EthBridgeEvents
import Verif.Props.EthBridgeApply
import Verif.Props.EthereumEvents
import Verif.Props.TokenManager

/-!
# The composed system: synchronisation of the two pallets, and what the ghost trace records
-/

namespace Verif.Deposits

open Verif Verif.Lower

variable (decode : Nat → TokenManager.EventData)

/-- Transaction hashes of the events delivered so far, by either path. -/
def hashes (t : List Entry) : List Nat :=
  t.filterMap (fun x => match x with | .eth _ e _ _ _ => some e.txHash | .call _ _ => none)

/-- The token-manager history a trace describes. -/
def tmSteps (t : List Entry) : List (TokenManager.Env × TokenManager.Step) :=
  t.map (fun x => match x with | .eth _ e env _ _ => (env, .event (decode e.payload)) | .call env st => (env, st))

theorem hashes_append (a b : List Entry) : hashes (a ++ b) = hashes a ++ hashes b := by simp [hashes]

theorem tm_run_append (s : TokenManager.State) (a b : List (TokenManager.Env × TokenManager.Step)) :
    TokenManager.run s (a ++ b) = TokenManager.run (TokenManager.run s a) b := by
  induction a generalizing s with
  | nil => rfl
  | cons x a ih => exact ih _

theorem minted_append (s : TokenManager.State) (t : Addr) (a b : List (TokenManager.Env × TokenManager.Step)) :
    TokenManager.mintedRun s t (a ++ b) =
      TokenManager.mintedRun s t a + TokenManager.mintedRun (TokenManager.run s a) t b := by
  induction a generalizing s with
  | nil => simp [TokenManager.mintedRun, TokenManager.run]
  | cons x a ih =>
    simp only [List.cons_append, TokenManager.mintedRun, TokenManager.run, ih]
    omega

/-- What one delivered event creates of token `t`: the amount of a successful lift or refund of `t`, unless `t` is the
native token at that moment. -/
def credit (t : Addr) : Entry → Nat
  | .eth _ e _ native ok =>
    if ok = true ∧ t ≠ native then
      match decode e.payload with
      | .lifted t' _ a => if t' = t then a else 0
      | .lowerReverted t' _ a _ => if t' = t then a else 0
      | _ => 0
    else 0
  | .call _ _ => 0

/-- What the trace says about the token manager. -/
structure Faithful (tm0 : TokenManager.State) (w : World) : Prop where
  replay : w.tm = TokenManager.run tm0 (tmSteps decode w.trace)
  calls : ∀ env st, Entry.call env st ∈ w.trace → ordinary st = true
  minted : ∀ t, TokenManager.mintedRun tm0 t (tmSteps decode w.trace) = (w.trace.map (credit decode t)).sum

theorem Faithful.snoc {tm0 : TokenManager.State} {w : World} (h : Faithful decode tm0 w) (x : Entry) (w' : World)
    (env : TokenManager.Env) (st : TokenManager.Step) (hx : tmSteps decode [x] = [(env, st)])
    (ht : w'.trace = w.trace ++ [x]) (hs : w'.tm = (TokenManager.step env w.tm st).1)
    (hc : ∀ env st, x = .call env st → ordinary st = true)
    (hm : ∀ t, TokenManager.minted env w.tm st t = credit decode t x) : Faithful decode tm0 w' := by
  have hmap : tmSteps decode w'.trace = tmSteps decode w.trace ++ [(env, st)] := by
    rw [ht, ← hx]; simp [tmSteps]
  refine ⟨?_, ?_, ?_⟩
  · rw [hmap, tm_run_append, ← h.replay, hs]; rfl
  · intro env st hmem
    rw [ht, List.mem_append, List.mem_singleton] at hmem
    rcases hmem with hmem | hmem
    · exact h.calls _ _ hmem
    · exact hc _ _ hmem.symm
  · intro t
    rw [hmap, minted_append, h.minted t, ← h.replay, ht, List.map_append, List.sum_append]
    simp [TokenManager.mintedRun, hm t]

theorem faithful_envs {tm0 : TokenManager.State} {w : World} (h : Faithful decode tm0 w) (envs) (nftOk) :
    Faithful decode tm0 { w with envs := envs, nftOk := nftOk } := ⟨h.replay, h.calls, h.minted⟩

theorem faithful_apply {tm0 : TokenManager.State} {w : World} (h : Faithful decode tm0 w) (path : Path)
    (e : EthBridge.EthEvent) : Faithful decode tm0 (apply decode path w e).1 := by
  refine h.snoc decode _ _ (w.envs e) (.event (decode e.payload)) rfl rfl rfl (by intro _ _ h; cases h) ?_
  intro t
  simp only [TokenManager.minted, credit]
  cases ho : (TokenManager.step (w.envs e) w.tm (.event (decode e.payload))).2 with
  | some er => simp
  | none =>
    simp only [ne_eq, not_true_eq_false, if_false, Option.isNone_none, true_and]
    cases decode e.payload <;> simp only [] <;> split_ifs <;> simp_all

theorem minted_ordinary {env : TokenManager.Env} {s : TokenManager.State} {st : TokenManager.Step} (t : Addr)
    (h : ordinary st = true) : TokenManager.minted env s st t = 0 := by
  unfold TokenManager.minted
  cases st <;> simp [ordinary] at h ⊢

/-! ### The bridge's part -/

/-- Entries the bridge adds for the events it hands over. -/
def bridgeEntries (e : EthBridge.EthEvent) (x : Entry) : Prop := ∃ env native ok, x = .eth .bridge e env native ok

theorem applyHandled_trace (w : World) (new : List EthBridge.Obs) :
    ∃ add, (EthBridge.applyHandled (bridgeHandler decode) w new).trace = w.trace ++ add ∧
      hashes add = EthBridge.handledHashes new ∧
      ∀ x ∈ add, ∃ e env native ok, x = .eth .bridge e env native ok ∧ EthBridge.Obs.handled e ∈ new := by
  induction new generalizing w with
  | nil => exact ⟨[], by simp [EthBridge.applyHandled, hashes, EthBridge.handledHashes]⟩
  | cons o new ih =>
    cases o with
    | handled e =>
      obtain ⟨add, h1, h2, h3⟩ := ih (bridgeHandler decode w e).1
      refine ⟨.eth .bridge e (w.envs e) w.tm.avtContract
        (TokenManager.step (w.envs e) w.tm (.event (decode e.payload))).2.isNone :: add, ?_, ?_, ?_⟩
      · simp only [EthBridge.applyHandled]; rw [h1]; simp [bridgeHandler, apply]
      · have : hashes add = EthBridge.handledHashes new := h2
        simp only [hashes, List.filterMap_cons] at this ⊢
        rw [this]; simp [EthBridge.handledHashes]
      · intro x hx
        rcases List.mem_cons.1 hx with rfl | hx
        · exact ⟨e, _, _, _, rfl, by simp⟩
        · obtain ⟨e', env, n, ok, hx, hm⟩ := h3 x hx
          exact ⟨e', env, n, ok, hx, List.mem_cons_of_mem _ hm⟩
    | _ =>
      obtain ⟨add, h1, h2, h3⟩ := ih w
      refine ⟨add, by simpa [EthBridge.applyHandled] using h1, by simpa [EthBridge.handledHashes] using h2, ?_⟩
      intro x hx
      obtain ⟨e', env, n, ok, hx, hm⟩ := h3 x hx
      exact ⟨e', env, n, ok, hx, List.mem_cons_of_mem _ hm⟩

theorem applyHandled_faithful {tm0 : TokenManager.State} {w : World} (h : Faithful decode tm0 w)
    (new : List EthBridge.Obs) : Faithful decode tm0 (EthBridge.applyHandled (bridgeHandler decode) w new) := by
  induction new generalizing w with
  | nil => exact h
  | cons o new ih =>
    cases o with
    | handled e => exact ih (faithful_apply decode h .bridge e)
    | _ => exact ih h

/-! ### The other pallet's part -/

theorem legacy_cases (s : EthEvents.State World) (op : LegacyOp) :
    let s' := EthEvents.step (legacyHandler decode) s op.toStep
    (s'.world = s.world ∧ (s'.processed = s.processed ∨
        ∃ id, op.target = some id ∧ s'.processed = EthEvents.markProcessed s.processed id)) ∨
      ∃ id p named, op.target = some id ∧ EthEvents.lastPending s.pending id = some p ∧
        s.processed id.txHash = none ∧
        s'.processed = EthEvents.markProcessed s.processed id ∧
        s'.world = (apply decode .legacy s.world (toBridge p.check.event)).1 ∧
        s'.log = (EthEvents.deliver (legacyHandler decode) (EthEvents.settle s p id named) p id).log := by
  intro s'
  have key : (op.target = none → s'.processed = s.processed ∧ s'.world = s.world) := by
    cases op with
    | process => intro h; cases h
    | addLog ty tx a =>
      intro _
      simp only [s', LegacyOp.toStep, EthEvents.step, EthEvents.addLog]
      by_cases h0 : tx = 0
      · rw [if_pos h0]; exact ⟨rfl, rfl⟩
      rw [if_neg h0]; unfold EthEvents.addEvent
      split_ifs <;> exact ⟨rfl, rfl⟩
    | signedAddLog ty tx a g f =>
      intro _
      simp only [s', LegacyOp.toStep, EthEvents.step, EthEvents.signedAddLog]
      unfold EthEvents.addEvent
      split_ifs <;> exact ⟨rfl, rfl⟩
    | submit c k n d g =>
      intro _
      simp only [s', LegacyOp.toStep, EthEvents.step]
      unfold EthEvents.submitCheck
      split_ifs <;> exact ⟨rfl, rfl⟩
    | challenge id a k n g =>
      intro _
      simp only [s', LegacyOp.toStep, EthEvents.step]
      unfold EthEvents.challengeEvent
      by_cases h1 : EthEvents.validChallenge s id a k n g = true
      · rw [if_pos h1]
        by_cases h2 : Avn.isValidator s.validators a = false
        · rw [if_pos h2]; exact ⟨rfl, rfl⟩
        rw [if_neg h2]
        cases s.pending.reverse.find? (fun p => p.id == id && p.counter == k) with
        | none => exact ⟨rfl, rfl⟩
        | some p => dsimp only; split_ifs <;> exact ⟨rfl, rfl⟩
      · rw [if_neg h1]; exact ⟨rfl, rfl⟩
    | setPeriod p =>
      intro _
      simp only [s', LegacyOp.toStep, EthEvents.step, EthEvents.setPeriod]
      split_ifs <;> exact ⟨rfl, rfl⟩
  cases ht : op.target with
  | none => exact .inl ⟨(key ht).2, .inl (key ht).1⟩
  | some id =>
    cases op with
    | process id' k n g =>
      have : id' = id := by simpa [LegacyOp.target] using ht
      subst this
      have hset : ∀ p, (EthEvents.settle s p id' n).processed = s.processed ∨
          (EthEvents.settle s p id' n).processed = EthEvents.markProcessed s.processed id' := by
        intro p; unfold EthEvents.settle EthEvents.emit; dsimp only; split <;> simp
      simp only [s', LegacyOp.toStep, EthEvents.step]
      by_cases hv : EthEvents.validProcess s id' k n g = true
      · rw [if_pos hv]
        unfold EthEvents.processEvent
        by_cases h1 : Avn.isValidator s.validators n = false
        · rw [if_pos h1]; exact .inl ⟨rfl, .inl rfl⟩
        rw [if_neg h1]
        cases hp : EthEvents.lastPending s.pending id' with
        | none => exact .inl ⟨rfl, .inl rfl⟩
        | some p =>
          dsimp only
          by_cases h2 : s.block ≤ p.check.readyAfter
          · rw [if_pos h2]; exact .inl ⟨rfl, .inl rfl⟩
          rw [if_neg h2]
          by_cases h3 : p.check.result = .ok ∧ EthEvents.challengeSuccessful s p.check = false ∧ s.processed id'.txHash = none
          · rw [if_pos h3]
            refine .inr ⟨id', p, n, rfl, hp, h3.2.2, ?_, rfl, rfl⟩
            change (EthEvents.settle s p id' n).processed = _
            unfold EthEvents.settle EthEvents.emit; dsimp only
            rw [if_neg]
            rw [h3.1, h3.2.1]; simp
          · rw [if_neg h3]
            left
            refine ⟨rfl, ?_⟩
            change (EthEvents.settle s p id' n).processed = _ ∨ _
            rcases hset p with h | h
            · exact .inl h
            · exact .inr ⟨id', rfl, h⟩
      · rw [if_neg hv]; exact .inl ⟨rfl, .inl rfl⟩
    | _ => cases ht

/-- The bridge's record of what the other pallet processed agrees with that pallet's own view. -/
theorem record_sync (b : EthBridge.State World) (before after : Nat → Option Bool) (id : EthEvents.EventId)
    (h : before = view b.processed) (ha : after = before ∨ after = EthEvents.markProcessed before id) :
    view (record b before after id).processed = after := by
  unfold record
  by_cases hc : after id.txHash = before id.txHash
  · rw [if_pos hc]
    rcases ha with rfl | rfl
    · exact h.symm
    · rw [← h]
      unfold EthEvents.markProcessed at hc ⊢
      split_ifs at hc ⊢ with h1 h2
      · rfl
      · rw [upd_same] at hc; exact absurd hc.symm h1
      · rfl
  · rw [if_neg hc]
    rcases ha with rfl | rfl
    · exact absurd rfl hc
    unfold EthEvents.markProcessed at hc ⊢
    split_ifs at hc ⊢ with h1 h2
    · exact absurd rfl hc
    · have hna : EthBridge.alreadyAccepted b id.txHash = false := by
        unfold EthBridge.alreadyAccepted
        rw [h] at h1
        simp only [view] at h1
        cases hb : b.processed id.txHash with
        | none => rfl
        | some v => obtain ⟨k, acc⟩ := v; rw [hb] at h1; cases acc <;> simp_all
      unfold EthBridge.addProcessedEvent
      simp only [hna, Bool.false_eq_true, if_false]
      have : ∃ k, (if Events.legacyLiftSignatures.contains id.signature = true then some Events.ValidEvent.lifted
          else Events.tryFrom id.signature) = some k := by
        by_cases hl : Events.legacyLiftSignatures.contains id.signature = true
        · exact ⟨_, if_pos hl⟩
        · rw [if_neg hl]
          simp only [Bool.not_eq_true] at hl
          rw [hl, Bool.false_or] at h2
          exact Option.isSome_iff_exists.1 h2
      obtain ⟨k, hk⟩ := this
      simp only [hk]
      funext x
      simp only [Option.getD_some, view, upd_apply]
      by_cases hx : x = id.txHash
      · simp [hx]
      · simp only [hx, if_false, h, view]
    · exact absurd rfl hc

/-- Adding to the processed map never removes an entry. -/
theorem record_mono (b : EthBridge.State World) (before after : Nat → Option Bool) (id : EthEvents.EventId) (h : Nat)
    (hh : (b.processed h).isSome = true) : ((record b before after id).processed h).isSome = true := by
  unfold record
  split
  · exact hh
  · cases ha : EthBridge.addProcessedEvent b { signature := id.signature, txHash := id.txHash, payload := 0 } true with
    | none => exact hh
    | some b' =>
      obtain ⟨k, rfl⟩ := EthBridge.addProcessedEvent_spec ha
      simp only [Option.getD_some, upd_apply]
      split <;> simp [hh]

theorem record_world (b : EthBridge.State World) (before after : Nat → Option Bool) (id : EthEvents.EventId) :
    (record b before after id).world = b.world ∧ (record b before after id).log = b.log := by
  unfold record
  split
  · exact ⟨rfl, rfl⟩
  · cases ha : EthBridge.addProcessedEvent b { signature := id.signature, txHash := id.txHash, payload := 0 } true with
    | none => exact ⟨rfl, rfl⟩
    | some b' => obtain ⟨k, rfl⟩ := EthBridge.addProcessedEvent_spec ha; exact ⟨rfl, rfl⟩

/-! ### Invariant of the system -/

/-- Everything that stays true along a history. -/
structure Inv (tm0 : TokenManager.State) (s : State) : Prop where
  world : s.legacy.world = s.bridge.world
  processed : s.legacy.processed = view s.bridge.processed
  known : EthEvents.Known s.legacy
  faithful : Faithful decode tm0 s.bridge.world
  nodup : (hashes s.bridge.world.trace).Nodup
  recorded : ∀ h ∈ hashes s.bridge.world.trace, (s.bridge.processed h).isSome = true
  bridgeLog : ∀ e env n ok, Entry.eth .bridge e env n ok ∈ s.bridge.world.trace → EthBridge.Obs.handled e ∈ s.bridge.log
  legacyLog : ∀ e env n ok, Entry.eth .legacy e env n ok ∈ s.bridge.world.trace →
    ∃ now le, (now, EthEvents.Obs.handled le) ∈ s.legacy.log ∧ toBridge le = e

theorem markProcessed_known {m : Nat → Option Bool} {id : EthEvents.EventId} (h : (Events.tryFrom id.signature).isSome = true) :
    (EthEvents.markProcessed m id id.txHash).isSome = true := by
  unfold EthEvents.markProcessed
  split_ifs with h1 h2
  · simp [h1]
  · simp
  · simp [h] at h2

theorem mono_processed_mark {m : Nat → Option Bool} {id : EthEvents.EventId} {h : Nat} (hh : (m h).isSome = true) :
    (EthEvents.markProcessed m id h).isSome = true := by
  unfold EthEvents.markProcessed
  split_ifs
  · exact hh
  · rw [upd_apply]; split <;> simp [hh]
  · exact hh

theorem op_not_external (op : BridgeOp) (w : World) : op.toStep ≠ .external w := by cases op <;> simp [BridgeOp.toStep]

theorem view_isSome (m : Nat → Option (Events.ValidEvent × Bool)) (h : Nat) : (view m h).isSome = (m h).isSome := by
  simp [view]

theorem known_legacy_step {s : EthEvents.State World} (h : EthEvents.Known s) (x : EthEvents.Step World) :
    EthEvents.Known (EthEvents.step (legacyHandler decode) s x) := EthEvents.known_view h (EthEvents.step_view s x)

theorem legacy_log_mono (s : EthEvents.State World) (x : EthEvents.Step World) :
    ∀ o ∈ s.log, o ∈ (EthEvents.step (legacyHandler decode) s x).log := by
  intro o ho
  have v := EthEvents.step_view (handler := legacyHandler decode) s x
  generalize EthEvents.step (legacyHandler decode) s x = s' at v
  have e : ∀ (s : EthEvents.State World) es, o ∈ s.log → o ∈ (EthEvents.emit s es).log := by
    intro s es h; simp [EthEvents.emit, h]
  cases v with
  | frame s' hu hp hpr hc hq hi hf hl => rw [hl]; exact ho
  | period p hp => exact e _ _ ho
  | bridge tx acc h => exact ho
  | added => exact e _ _ ho
  | submitted => exact e _ _ ho
  | delivered => exact e _ _ (e _ _ ho)
  | refused => exact e _ _ (e _ _ ho)
  | challenged => exact e _ _ ho

theorem inv_step {tm0 : TokenManager.State} {s : State} (h : Inv decode tm0 s) (st : Step) : Inv decode tm0 (step decode s st) := by
  cases st with
  | block n vs =>
    exact ⟨h.world, h.processed, h.known, h.faithful, h.nodup, h.recorded, h.bridgeLog, h.legacyLog⟩
  | token env st =>
    simp only [step]
    by_cases ho : ordinary st = true
    · rw [if_pos ho]
      refine ⟨rfl, h.processed, h.known, ?_, ?_, ?_, ?_, ?_⟩
      · exact h.faithful.snoc decode _ _ env st rfl rfl rfl (by intro _ _ e; cases e; exact ho)
          (fun t => by rw [minted_ordinary t ho]; rfl)
      · simp only [hashes_append]; simpa [hashes] using h.nodup
      · intro x hx; simp only [hashes_append] at hx; exact h.recorded x (by simpa [hashes] using hx)
      · intro e env n ok hx; exact h.bridgeLog e env n ok (by simpa using hx)
      · intro e env n ok hx; exact h.legacyLog e env n ok (by simpa using hx)
    · rw [if_neg ho]; exact h
  | bridge envs op =>
    simp only [step]
    generalize hb0 : ({ s.bridge with world := { s.bridge.world with envs := envs } } : EthBridge.State World) = b0
    have hw0 : b0.world = { s.bridge.world with envs := envs } := by rw [← hb0]
    have hp0 : b0.processed = s.bridge.processed := by rw [← hb0]
    have hl0 : b0.log = s.bridge.log := by rw [← hb0]
    obtain ⟨new, hlog, hworld, -⟩ := EthBridge.step_applies (bridgeHandler decode) b0 op.toStep (op_not_external op)
    obtain ⟨new', hlog', hmono, hnd, hnew⟩ := EthBridge.step_grow (bridgeHandler decode) b0 op.toStep
    have : new' = new := by rw [hlog] at hlog'; exact (List.append_cancel_left hlog').symm
    subst this
    generalize EthBridge.step (bridgeHandler decode) b0 op.toStep = b at *
    obtain ⟨add, h1, h2, h3⟩ := applyHandled_trace decode b0.world new'
    rw [← hworld] at h1
    have htr : b0.world.trace = s.bridge.world.trace := by rw [hw0]
    rw [htr] at h1
    rw [hp0] at hmono hnew
    refine ⟨rfl, rfl, h.known, ?_, ?_, ?_, ?_, ?_⟩
    · show Faithful decode tm0 b.world
      rw [hworld]; apply applyHandled_faithful
      rw [hw0]; exact faithful_envs decode h.faithful envs s.bridge.world.nftOk
    · show (hashes b.world.trace).Nodup
      rw [h1, hashes_append, h2, List.nodup_append]
      refine ⟨h.nodup, hnd, ?_⟩
      rintro a ha c hc rfl
      have := h.recorded a ha
      rw [(hnew a hc).1] at this; simp at this
    · intro x hx
      change x ∈ hashes b.world.trace at hx
      rw [h1, hashes_append, h2, List.mem_append] at hx
      rcases hx with hx | hx
      · exact hmono x (h.recorded x hx)
      · exact (hnew x hx).2
    · intro e env n ok hx
      change _ ∈ b.world.trace at hx
      show _ ∈ b.log
      rw [h1, List.mem_append] at hx
      rw [hlog, hl0, List.mem_append]
      rcases hx with hx | hx
      · exact .inl (h.bridgeLog e env n ok hx)
      · obtain ⟨e', _, _, _, he, hm⟩ := h3 _ hx
        cases he; exact .inr hm
    · intro e env n ok hx
      change _ ∈ b.world.trace at hx
      rw [h1, List.mem_append] at hx
      rcases hx with hx | hx
      · exact h.legacyLog e env n ok hx
      · obtain ⟨e', _, _, _, he, hm⟩ := h3 _ hx
        cases he
  | legacy envs nftOk op =>
    simp only [step]
    generalize hl0 : ({ s.legacy with world := { s.legacy.world with envs := envs, nftOk := nftOk } } :
      EthEvents.State World) = l0
    have hw0 : l0.world = { s.bridge.world with envs := envs, nftOk := nftOk } := by rw [← hl0, ← h.world]
    have hp0 : l0.processed = view s.bridge.processed := by rw [← hl0]; exact h.processed
    have hlog0 : l0.log = s.legacy.log := by rw [← hl0]
    have hk0 : EthEvents.Known l0 := by rw [← hl0]; exact h.known
    have hk := known_legacy_step decode hk0 op.toStep
    have hlm := legacy_log_mono decode l0 op.toStep
    have hcases := legacy_cases decode l0 op
    generalize EthEvents.step (legacyHandler decode) l0 op.toStep = l at *
    rw [h.processed]
    have hsync : l.processed = view (recordOp s.bridge (view s.bridge.processed) l.processed op).processed := by
      unfold recordOp
      cases ht : op.target with
      | none =>
        rcases hcases with ⟨_, hh | ⟨id, hid, _⟩⟩ | ⟨id, p, named, hid, _⟩
        · rw [hh, hp0]
        · rw [ht] at hid; cases hid
        · rw [ht] at hid; cases hid
      | some id =>
        refine (record_sync s.bridge _ l.processed id rfl ?_).symm
        rw [hp0] at hcases
        rcases hcases with ⟨_, hh | ⟨id', hid, hh⟩⟩ | ⟨id', p, named, hid, _, _, hh, _⟩
        · exact .inl hh
        · rw [ht] at hid; cases hid; exact .inr hh
        · rw [ht] at hid; cases hid; exact .inr hh
    have hblog : (recordOp s.bridge (view s.bridge.processed) l.processed op).log = s.bridge.log := by
      unfold recordOp
      cases op.target with
      | none => rfl
      | some id => exact (record_world ..).2
    have hbmono : ∀ x, (s.bridge.processed x).isSome = true →
        ((recordOp s.bridge (view s.bridge.processed) l.processed op).processed x).isSome = true := by
      intro x hx
      unfold recordOp
      cases op.target with
      | none => exact hx
      | some id => exact record_mono _ _ _ _ _ hx
    generalize recordOp s.bridge (view s.bridge.processed) l.processed op = b at *
    rcases hcases with ⟨hw, _⟩ | ⟨id, p, named, hid, hlp, hnone, hmark, hw, hlog⟩
    · have htr : l.world.trace = s.bridge.world.trace := by rw [hw, hw0]
      refine ⟨rfl, hsync, hk, ?_, ?_, ?_, ?_, ?_⟩
      · show Faithful decode tm0 l.world
        rw [hw, hw0]; exact faithful_envs decode h.faithful envs nftOk
      · show (hashes l.world.trace).Nodup
        rw [htr]; exact h.nodup
      · intro x hx
        change x ∈ hashes l.world.trace at hx
        rw [htr] at hx
        exact hbmono x (h.recorded x hx)
      · intro e env n ok hx
        change _ ∈ l.world.trace at hx
        rw [htr] at hx
        show _ ∈ b.log
        rw [hblog]; exact h.bridgeLog e env n ok hx
      · intro e env n ok hx
        change _ ∈ l.world.trace at hx
        rw [htr] at hx
        obtain ⟨now, le, hm, he⟩ := h.legacyLog e env n ok hx
        exact ⟨now, le, hlm _ (hlog0 ▸ hm), he⟩
    · obtain ⟨hpm, hpid⟩ := EthEvents.lastPending_mem hlp
      have hpid' : p.check.event.id = id := hpid
      have hsig : (Events.tryFrom id.signature).isSome = true := by
        apply hk0
        simp only [EthEvents.queued, List.mem_append]
        exact .inr (List.mem_map.2 ⟨p, hpm, hpid⟩)
      have htr : l.world.trace = s.bridge.world.trace ++
          [.eth .legacy (toBridge p.check.event) (envs (toBridge p.check.event)) s.bridge.world.tm.avtContract
            (TokenManager.step (envs (toBridge p.check.event)) s.bridge.world.tm
              (.event (decode (toBridge p.check.event).payload))).2.isNone] := by
        rw [hw, hw0]; rfl
      have htx : (toBridge p.check.event).txHash = id.txHash := by simp [toBridge, hpid']
      refine ⟨rfl, hsync, hk, ?_, ?_, ?_, ?_, ?_⟩
      · show Faithful decode tm0 l.world
        rw [hw]; apply faithful_apply
        rw [hw0]; exact faithful_envs decode h.faithful envs nftOk
      · show (hashes l.world.trace).Nodup
        rw [htr, hashes_append, List.nodup_append]
        refine ⟨h.nodup, by simp [hashes], ?_⟩
        intro a ha c hc
        have hc' : c = id.txHash := by simpa [hashes, htx] using hc
        rintro rfl
        have := h.recorded a ha
        rw [hc', ← view_isSome, ← hp0, hnone] at this; simp at this
      · intro x hx
        change x ∈ hashes l.world.trace at hx
        rw [htr, hashes_append, List.mem_append] at hx
        rcases hx with hx | hx
        · exact hbmono x (h.recorded x hx)
        · have hx' : x = id.txHash := by simpa [hashes, htx] using hx
          subst hx'
          show (b.processed id.txHash).isSome = true
          rw [← view_isSome, ← hsync, hmark]; exact markProcessed_known hsig
      · intro e env n ok hx
        change _ ∈ l.world.trace at hx
        rw [htr] at hx
        show _ ∈ b.log
        rw [hblog]
        refine h.bridgeLog e env n ok ?_
        rcases List.mem_append.1 hx with hx | hx
        · exact hx
        · simp at hx
      · intro e env n ok hx
        change _ ∈ l.world.trace at hx
        rw [htr] at hx
        rcases List.mem_append.1 hx with hx | hx
        · obtain ⟨now, le, hm, he⟩ := h.legacyLog e env n ok hx
          exact ⟨now, le, hlm _ (hlog0 ▸ hm), he⟩
        · refine ⟨l0.block, p.check.event, ?_, ?_⟩
          · show _ ∈ l.log
            rw [hlog]; simp [EthEvents.deliver, EthEvents.emit, EthEvents.settle]
          · simp only [List.mem_singleton, Entry.eth.injEq] at hx; exact hx.2.1.symm

theorem run_snoc (s : State) (l : List Step) (x : Step) : run decode s (l ++ [x]) = step decode (run decode s l) x := by
  simp [run]

theorem inv_run {tm0 : TokenManager.State} {s : State} (h : Inv decode tm0 s) (steps : List Step) :
    Inv decode tm0 (run decode s steps) := by
  induction steps using List.reverseRecOn with
  | nil => exact h
  | append_singleton l x ih => rw [run_snoc]; exact inv_step decode ih x

theorem inv_initial (tm : TokenManager.State) (env : TokenManager.Env) (authors : List Nat) (size qf period : Nat)
    (lifts : List Nat) (vs : List Avn.Validator) (filter : List Events.ValidEvent) :
    Inv decode tm (initial tm env authors size qf period lifts vs filter) := by
  refine ⟨rfl, ?_, ?_, ⟨rfl, ?_, ?_⟩, ?_, ?_, ?_, ?_⟩
  · rfl
  · intro id hid
    simp only [EthEvents.queued, initial, EthEvents.genesis, List.map_nil, List.append_nil, EthEvents.genesisQueue_ids] at hid
    obtain ⟨h, _, rfl⟩ := List.mem_map.1 hid
    exact EthEvents.tryFrom_signature .lifted
  all_goals simp [initial, EthBridge.initial, hashes, tmSteps, TokenManager.mintedRun]

end Verif.Deposits
