import Verif.Model.EndToEnd
import Verif.Props.Deposits
import Verif.Props.DiscoveryComplete

/-!
# The runtime's history as the bridge pallet sees it
-/

namespace Verif.EndToEnd

open Verif Verif.EthBridge

variable (decode : Nat → TokenManager.EventData)

/-- The bridge's history of one step leads to the bridge state of the runtime after it. -/
theorem bridgeStep_run (s : Deposits.State) (st : Deposits.Step) :
    run (Deposits.bridgeHandler decode) s.bridge (bridgeStep decode s st) = (Deposits.step decode s st).bridge := by
  cases st with
  | bridge envs op => rfl
  | token env t =>
    simp only [bridgeStep, run, List.foldl_cons, List.foldl_nil, step, Deposits.step]
    split_ifs <;> rfl
  | block n vs => rfl
  | legacy envs nftOk op =>
    simp only [bridgeStep]
    cases ht : op.target with
    | none =>
      simp only [run, List.nil_append, List.foldl_cons, List.foldl_nil, step, Deposits.step, Deposits.recordOp, ht]
    | some id =>
      dsimp only
      have hrec : (Deposits.step decode s (.legacy envs nftOk op)).bridge =
          { Deposits.record s.bridge s.legacy.processed (Deposits.step decode s (.legacy envs nftOk op)).legacy.processed id with
            world := (Deposits.step decode s (.legacy envs nftOk op)).bridge.world } := by
        simp only [Deposits.step, Deposits.recordOp, ht]
      generalize Deposits.step decode s (.legacy envs nftOk op) = s' at hrec
      rw [hrec]
      by_cases hc : s'.legacy.processed id.txHash = s.legacy.processed id.txHash
      · rw [if_pos hc]
        simp only [run, List.nil_append, List.foldl_cons, List.foldl_nil, step, Deposits.record, if_pos hc]
      · rw [if_neg hc]
        simp only [run, List.cons_append, List.nil_append, List.foldl_cons, List.foldl_nil, step, Deposits.record, if_neg hc]

theorem bridgeHistory_run (s : Deposits.State) (steps : List Deposits.Step) :
    run (Deposits.bridgeHandler decode) s.bridge (bridgeHistory decode s steps) = (Deposits.run decode s steps).bridge := by
  induction steps generalizing s with
  | nil => rfl
  | cons st rest ih =>
    rw [bridgeHistory, EthBridge.run_append, bridgeStep_run, ih]
    rfl

theorem record_log {W : Type} (s : EthBridge.State W) (e : EthEvent) (acc : Bool) :
    ((addProcessedEvent s e acc).getD s).log = s.log := by
  unfold addProcessedEvent
  by_cases h : alreadyAccepted s e.txHash = true
  · rw [if_pos h]; rfl
  · rw [if_neg h]
    dsimp only
    generalize (if Events.legacyLiftSignatures.contains e.signature = true then some Events.ValidEvent.lifted else Events.tryFrom e.signature) = o
    cases o <;> rfl

theorem applyHandled_mem (e : EthEvent) (new : List Obs) (h : Obs.handled e ∈ new) (w : Deposits.World) :
    ∃ env n ok, Deposits.Entry.eth .bridge e env n ok ∈ (applyHandled (Deposits.bridgeHandler decode) w new).trace := by
  induction new generalizing w with
  | nil => simp at h
  | cons o new ih =>
    rcases List.mem_cons.1 h with rfl | h2
    · obtain ⟨add, ha, -⟩ := Deposits.applyHandled_trace decode (Deposits.bridgeHandler decode w e).1 new
      refine ⟨w.envs e, w.tm.avtContract, (TokenManager.step (w.envs e) w.tm (.event (decode e.payload))).2.isNone, ?_⟩
      simp only [applyHandled]
      rw [ha]
      exact List.mem_append_left _ (by simp [Deposits.bridgeHandler, Deposits.apply])
    · cases o with
      | handled e' => exact ih h2 _
      | _ => exact ih h2 w

/-- Every event the bridge handed over is in the trace. -/
theorem handled_in_trace (g : Deposits.Genesis) (steps : List Deposits.Step) (e : EthEvent)
    (h : Obs.handled e ∈ (g.after decode steps).bridge.log) :
    ∃ env n ok, Deposits.Entry.eth .bridge e env n ok ∈ (g.after decode steps).trace := by
  induction steps using List.reverseRecOn with
  | nil => simp [Deposits.Genesis.after, Deposits.run, Deposits.initial, EthBridge.initial] at h
  | append_singleton steps st ih =>
    rw [g.after_snoc] at h ⊢
    have hinv := g.inv decode steps
    obtain ⟨⟨add, hadd, -⟩, -⟩ := Deposits.trace_step decode _ _ hinv st
    have hold : (∃ env n ok, Deposits.Entry.eth .bridge e env n ok ∈ (g.after decode steps).trace) →
        ∃ env n ok, Deposits.Entry.eth .bridge e env n ok ∈ (Deposits.step decode (g.after decode steps) st).trace := by
      rintro ⟨env, n, ok, hm⟩
      exact ⟨env, n, ok, by rw [hadd]; exact List.mem_append_left _ hm⟩
    generalize g.after decode steps = s at *
    cases st with
    | block n vs => exact hold (ih h)
    | token env t =>
      refine hold (ih ?_)
      simp only [Deposits.step] at h
      split_ifs at h <;> exact h
    | legacy envs nftOk op =>
      refine hold (ih ?_)
      simp only [Deposits.step, Deposits.recordOp] at h
      cases ht : op.target with
      | none => simpa [ht] using h
      | some id =>
        simp only [ht, Deposits.record] at h
        split_ifs at h
        · exact h
        · have := record_log s.bridge { signature := id.signature, txHash := id.txHash, payload := 0 } true
          rw [this] at h
          exact h
    | bridge envs op =>
      obtain ⟨new, hlog, hworld, -⟩ := EthBridge.step_applies (Deposits.bridgeHandler decode)
        { s.bridge with world := { s.bridge.world with envs := envs } } op.toStep (Deposits.op_not_external op)
      have h' : Obs.handled e ∈ (EthBridge.step (Deposits.bridgeHandler decode)
        { s.bridge with world := { s.bridge.world with envs := envs } } op.toStep).log := h
      rw [hlog] at h'
      rcases List.mem_append.1 h' with h' | h'
      · exact hold (ih h')
      · obtain ⟨env, n, ok, hm⟩ := applyHandled_mem decode e new h' { s.bridge.world with envs := envs }
        refine ⟨env, n, ok, ?_⟩
        show _ ∈ Deposits.World.trace (EthBridge.step (Deposits.bridgeHandler decode)
          { s.bridge with world := { s.bridge.world with envs := envs } } op.toStep).world
        rw [hworld]
        exact hm

/-- What records a transaction as processed without the bridge handing an event over: a migration, or the older pallet. -/
def RecordedElsewhere (h : Nat) : Deposits.Step → Prop
  | .bridge _ (.migrate _ batch) => ∃ e ∈ batch, e.1.txHash = h
  | .legacy _ _ (.process id _ _ _) => id.txHash = h
  | _ => False

theorem recorded_elsewhere (s : Deposits.State) (steps : List Deposits.Step) (h : Nat) (op : EthBridge.Step Deposits.World)
    (hop : op ∈ bridgeHistory decode s steps) (hr : EthBridge.RecordsElsewhere h op) : ∃ st ∈ steps, RecordedElsewhere h st := by
  induction steps generalizing s with
  | nil => simp [bridgeHistory] at hop
  | cons st rest ih =>
    rw [bridgeHistory, List.mem_append] at hop
    rcases hop with hop | hop
    · refine ⟨st, List.mem_cons_self, ?_⟩
      cases st with
      | bridge envs bop =>
        simp only [bridgeStep, List.mem_cons, List.not_mem_nil, or_false] at hop
        rcases hop with rfl | rfl
        · exact hr.elim
        · cases bop <;> simp only [Deposits.BridgeOp.toStep, EthBridge.RecordsElsewhere] at hr
          exact hr
      | legacy envs nftOk lop =>
        simp only [bridgeStep, List.mem_append, List.mem_singleton] at hop
        rcases hop with hop | rfl
        · cases lop <;> simp only [Deposits.LegacyOp.target, List.not_mem_nil] at hop
          split_ifs at hop
          · simp at hop
          · rw [List.mem_singleton] at hop
            subst hop
            exact hr
        · exact hr.elim
      | token env t =>
        simp only [bridgeStep, List.mem_singleton] at hop
        subst hop; exact hr.elim
      | block n vs => simp [bridgeStep] at hop
    · obtain ⟨st', hm, h'⟩ := ih _ hop
      exact ⟨st', List.mem_cons_of_mem _ hm, h'⟩

/-- The entries of a trace tell the native token and the outcome of their moment. -/
def Truthful (tm0 : TokenManager.State) (t : List Deposits.Entry) : Prop :=
  ∀ before path e env native ok after, t = before ++ .eth path e env native ok :: after →
    native = (TokenManager.run tm0 (Deposits.tmSteps decode before)).avtContract ∧
      ok = (TokenManager.step env (TokenManager.run tm0 (Deposits.tmSteps decode before)) (.event (decode e.payload))).2.isNone

theorem Truthful.snoc {tm0 : TokenManager.State} {t : List Deposits.Entry} (h : Truthful decode tm0 t) (x : Deposits.Entry)
    (hx : ∀ path e env native ok, x = .eth path e env native ok →
      native = (TokenManager.run tm0 (Deposits.tmSteps decode t)).avtContract ∧
      ok = (TokenManager.step env (TokenManager.run tm0 (Deposits.tmSteps decode t)) (.event (decode e.payload))).2.isNone) :
    Truthful decode tm0 (t ++ [x]) := by
  intro before path e env native ok after he
  rcases List.eq_nil_or_concat after with rfl | ⟨after', y, rfl⟩
  · obtain ⟨h1, h2⟩ := List.append_inj' he rfl
    subst h1
    exact hx _ _ _ _ _ (List.singleton_inj.1 h2)
  · simp only [List.concat_eq_append, ← List.cons_append, ← List.append_assoc] at he
    obtain ⟨h1, -⟩ := List.append_inj' he rfl
    exact h _ _ _ _ _ _ after' h1

theorem truthful_apply {tm0 : TokenManager.State} {w : Deposits.World} (hf : Deposits.Faithful decode tm0 w)
    (h : Truthful decode tm0 w.trace) (path : Deposits.Path) (e : EthEvent) :
    Truthful decode tm0 (Deposits.apply decode path w e).1.trace := by
  refine h.snoc decode _ ?_
  intro path' e' env native ok he
  cases he
  rw [← hf.replay]
  exact ⟨rfl, rfl⟩

theorem truthful_handled {tm0 : TokenManager.State} (new : List Obs) (w : Deposits.World) (hf : Deposits.Faithful decode tm0 w)
    (h : Truthful decode tm0 w.trace) : Truthful decode tm0 (applyHandled (Deposits.bridgeHandler decode) w new).trace := by
  induction new generalizing w with
  | nil => exact h
  | cons o new ih =>
    cases o with
    | handled e => exact ih _ (Deposits.faithful_apply decode hf .bridge e) (truthful_apply decode hf h .bridge e)
    | _ => exact ih w hf h

theorem truthful_run (g : Deposits.Genesis) (steps : List Deposits.Step) : Truthful decode g.tm (g.after decode steps).trace := by
  induction steps using List.reverseRecOn with
  | nil =>
    intro before path e env native ok after he
    simp [Deposits.Genesis.after, Deposits.run, Deposits.initial, EthBridge.initial, Deposits.State.trace] at he
  | append_singleton steps st ih =>
    rw [g.after_snoc]
    have hinv := g.inv decode steps
    generalize g.after decode steps = s at *
    cases st with
    | block n vs => exact ih
    | token env t =>
      simp only [Deposits.step]
      split_ifs
      · refine Truthful.snoc decode ih _ ?_
        intro path e env native ok he
        cases he
      · exact ih
    | bridge envs op =>
      obtain ⟨new, hlog, hworld, -⟩ := EthBridge.step_applies (Deposits.bridgeHandler decode)
        { s.bridge with world := { s.bridge.world with envs := envs } } op.toStep (Deposits.op_not_external op)
      show Truthful decode g.tm (Deposits.World.trace (EthBridge.step (Deposits.bridgeHandler decode)
          { s.bridge with world := { s.bridge.world with envs := envs } } op.toStep).world)
      rw [hworld]
      exact truthful_handled decode new _ (Deposits.faithful_envs decode hinv.faithful envs s.bridge.world.nftOk) ih
    | legacy envs nftOk op =>
      have hc := Deposits.legacy_cases decode
        { s.legacy with world := { s.legacy.world with envs := envs, nftOk := nftOk } } op
      have htr : s.legacy.world.trace = s.trace := by rw [hinv.world]; rfl
      show Truthful decode g.tm (Deposits.World.trace (EthEvents.step (Deposits.legacyHandler decode)
          { s.legacy with world := { s.legacy.world with envs := envs, nftOk := nftOk } } op.toStep).world)
      rcases hc with ⟨hw, _⟩ | ⟨id, p, named, hid, hlp, hnone, hmark, hw, hlog⟩
      · rw [hw]; dsimp only; rw [htr]; exact ih
      · rw [hw]
        have hf : Deposits.Faithful decode g.tm { s.legacy.world with envs := envs, nftOk := nftOk } := by
          have := hinv.faithful
          rw [← hinv.world] at this
          exact Deposits.faithful_envs decode this envs nftOk
        have ht : Truthful decode g.tm (Deposits.World.trace { s.legacy.world with envs := envs, nftOk := nftOk }) := by
          dsimp only; rw [htr]; exact ih
        exact truthful_apply decode hf ht .legacy _

end Verif.EndToEnd
