import Verif.Props.OffenceBook
import Verif.Props.BridgeOffence
import Verif.Props.BridgeOffenceEvents

/-!
# C126: the bridge's reports among those of all pallets
-/

namespace Verif.OffenceBook

variable {W V E : Type} (env : Env W V E)

/-- The calls about the bridge's transactions in a history. -/
def txOps (steps : List (Step W V E)) : List (BridgeTx.Step W) := steps.filterMap fun | .bridgeTx _ op => some op | _ => none

/-- The calls about Ethereum events in a history. -/
def evOps (steps : List (Step W V E)) : List (EthBridge.Step V) := steps.filterMap fun | .bridgeEv _ op => some op | _ => none

theorem chain_tx (c0 : Chain W V E) (steps : List (Step W V E)) :
    (run env c0 steps).tx = BridgeTx.run env.tx c0.tx (txOps steps) := by
  induction steps using List.reverseRecOn with
  | nil => rfl
  | append_singleton steps op ih =>
    have hs : txOps (steps ++ [op]) = txOps steps ++ txOps [op] := by simp [txOps, List.filterMap_append]
    rw [run_snoc, hs]
    unfold BridgeTx.run at ih ⊢
    rw [List.foldl_append, ← ih]
    cases op with
    | bridgeTx slash o => exact BridgeOffence.stepTx_state env.tx _ o
    | _ => rfl

theorem chain_ev (c0 : Chain W V E) (steps : List (Step W V E)) :
    (run env c0 steps).ev = EthBridge.run env.ev c0.ev (evOps steps) := by
  induction steps using List.reverseRecOn with
  | nil => rfl
  | append_singleton steps op ih =>
    have hs : evOps (steps ++ [op]) = evOps steps ++ evOps [op] := by simp [evOps, List.filterMap_append]
    rw [run_snoc, hs]
    unfold EthBridge.run at ih ⊢
    rw [List.foldl_append, ← ih]
    cases op with
    | bridgeEv slash o => exact BridgeOffence.stepEv_state env.ev _ o
    | _ => rfl

/-- **C126, outcomes of transactions.** In a history of the whole chain, a corroboration that settles a transaction reports exactly the
validators recorded with the opposite outcome (nobody, if there are none): none of them is the sender, or agreed, or is the one who
settled it. -/
theorem C126_bridge_outcome_reports (c0 : Chain W V E) (h0 : c0.tx.active = none) (steps : List (Step W V E)) (slash : Nat → Bool) (id : Nat)
    (ok hv : Bool) (a rep : Nat) (req : BridgeTx.Active) (r : BridgeTx.SendReq) (d : BridgeTx.TxData)
    (hact : (run env c0 steps).tx.active = some req) (hr : req.request = .send r) (hd : req.txData = some d)
    (hlog : ∃ ok' more, (run env c0 (steps ++ [.bridgeTx slash (.corroborate id ok hv a rep)])).tx.log =
      (run env c0 steps).tx.log ++ .result r.txId r.callerId ok' :: more) :
    reports env (run env c0 steps) (.bridgeTx slash (.corroborate id ok hv a rep)) =
      (if BridgeOffence.contradicting d ok = [] then []
        else [(.bridge (if ok then .challengedSuccess else .challengedFailure), BridgeOffence.contradicting d ok)]) ∧
    (BridgeOffence.contradicting d ok).Nodup ∧
    ∀ x ∈ BridgeOffence.contradicting d ok, x ≠ d.sender ∧ x ≠ a ∧ x ∉ BridgeOffence.agreeing d ok := by
  have hs : txOps (steps ++ [(.bridgeTx slash (.corroborate id ok hv a rep) : Step W V E)]) =
      txOps steps ++ [.corroborate id ok hv a rep] := by simp [txOps, List.filterMap_append]
  have h1 := chain_tx env c0 steps
  have h2 := chain_tx env c0 (steps ++ [.bridgeTx slash (.corroborate id ok hv a rep)])
  rw [hs] at h2
  rw [h1] at hact
  rw [h2, h1] at hlog
  obtain ⟨e1, e2, e3⟩ :=
    BridgeOffence.C107_contradicting_votes_are_reported env.tx c0.tx h0 (txOps steps) id ok hv a rep req r d hact hr hd hlog
  refine ⟨?_, e2, fun x hx => (e3 x hx).2⟩
  simp only [reports]
  rw [h1, e1]
  by_cases hc : BridgeOffence.contradicting d ok = []
  · rw [if_pos hc, if_pos hc]; rfl
  · rw [if_neg hc, if_neg hc]; rfl

/-- **C126, Ethereum events.** In a history of the whole chain, a vote of `a` that makes the pallet process partition `p` reports exactly the
voters recorded for another content of the same partition. -/
theorem C126_bridge_event_reports (c0 : Chain W V E) (w : V) (authors : List Nat) (size : Nat) (h0 : c0.ev = EthBridge.initial w authors size)
    (steps : List (Step W V E)) (slash : Nat → Bool) (a : Nat) (p : EthBridge.Partition)
    (hap : ∃ new, (run env c0 (steps ++ [.bridgeEv slash (.submitEvents a p)])).ev.log = (run env c0 steps).ev.log ++ new ∧
      EthBridge.Obs.approved p ∈ new) :
    (∀ q vs, (q, vs) ∈ (run env c0 steps).ev.votes → q ≠ p → vs ≠ [] →
      (.bridge .invalidRange, vs) ∈ reports env (run env c0 steps) (.bridgeEv slash (.submitEvents a p))) ∧
    ∀ r ∈ reports env (run env c0 steps) (.bridgeEv slash (.submitEvents a p)), r.1 = .bridge .invalidRange ∧
      ∃ q, q ≠ p ∧ q.range = p.range ∧ q.number = p.number ∧ (q, r.2) ∈ (run env c0 steps).ev.votes ∧ r.2.Nodup ∧
        ∀ x ∈ r.2, x ≠ a ∧ x ∉ EthBridge.lookupVotes (run env c0 steps).ev.votes p := by
  have hs : evOps (steps ++ [(.bridgeEv slash (.submitEvents a p) : Step W V E)]) = evOps steps ++ [.submitEvents a p] := by
    simp [evOps, List.filterMap_append]
  have h1 := chain_ev env c0 steps
  have h2 := chain_ev env c0 (steps ++ [.bridgeEv slash (.submitEvents a p)])
  rw [hs, h0] at h2
  rw [h0] at h1
  have hap' : Discovery.Approves env.ev (EthBridge.initial w authors size) (evOps steps) (.submitEvents a p) p := by
    obtain ⟨new, e1, e2⟩ := hap
    exact ⟨new, by rw [← h1, ← h2]; exact e1, e2⟩
  obtain ⟨e1, e2⟩ := BridgeOffence.C107_contrary_event_votes_are_reported env.ev w authors size (evOps steps) a p hap'
  rw [← h1] at e1 e2
  constructor
  · intro q vs hq hqp hne
    obtain ⟨x, hx⟩ := List.exists_mem_of_ne_nil vs hne
    exact List.mem_map.2 ⟨_, e1 q vs hq hqp x hx, rfl⟩
  · intro r hr
    obtain ⟨r', hr', rfl⟩ := List.mem_map.1 hr
    obtain ⟨k1, -, -, k4, q, q1, q2, q3, q4, q5⟩ := e2 r' hr'
    exact ⟨by rw [k1], q, q1, q2, q3, q4, k4, fun x hx => (q5 x hx).2⟩

/-- **C126, no other call of the bridge reports anybody.** -/
theorem C126_bridge_reports_only_then (c : Chain W V E) (slash : Nat → Bool) :
    (∀ op, reports env c (.bridgeTx slash op) ≠ [] →
      ∃ id ok hv a rep req r d more, op = .corroborate id ok hv a rep ∧ c.tx.active = some req ∧ req.request = .send r ∧ req.txData = some d ∧
        (step env c (.bridgeTx slash op)).tx.log = c.tx.log ++ .result r.txId r.callerId ok :: more) ∧
    ∀ op, reports env c (.bridgeEv slash op) ≠ [] →
      ∃ a p new, op = .submitEvents a p ∧ (step env c (.bridgeEv slash op)).ev.log = c.ev.log ++ new ∧ EthBridge.Obs.approved p ∈ new := by
  constructor
  · intro op h
    have h' : (BridgeOffence.stepTx env.tx c.tx op).2 ≠ [] := fun e => h (by simp only [reports, e, List.map_nil])
    obtain ⟨id, ok, hv, a, rep, req, r, d, more, k1, k2, k3, k4, k5⟩ := BridgeOffence.C107_only_outcomes_are_reported env.tx c.tx op h'
    refine ⟨id, ok, hv, a, rep, req, r, d, more, k1, k2, k3, k4, ?_⟩
    rw [← BridgeOffence.stepTx_state] at k5
    exact k5
  · intro op h
    have h' : (BridgeOffence.stepEv env.ev c.ev op).2 ≠ [] := fun e => h (by simp only [reports, e, List.map_nil])
    obtain ⟨a, p, new, k1, k2, k3⟩ := BridgeOffence.C107_only_processing_reports env.ev c.ev op h'
    refine ⟨a, p, new, k1, ?_, k3⟩
    rw [← BridgeOffence.stepEv_state] at k2
    exact k2

/-- The example chain with seven bridge authors, and ranges of ten blocks. -/
def exBridgeChain : Chain Nat Nat Nat := { exChain with tx := BridgeOffence.exSeven, ev := EthBridge.initial 0 [1, 2, 3, 4] 10 }
/-- Author 1 lies about a transaction; author 3 about events. -/
def exBridgeSteps : List (Step Nat Nat Nat) :=
  BridgeOffence.exLiar.map (.bridgeTx fun _ => true) ++ (Discovery.exHistory.take 4).map (.bridgeEv fun _ => true)

/-- The calls that settle these are of the kind the theorems are about, and their reports reach the events. -/
example : reports exEnv (run exEnv exBridgeChain exBridgeSteps) (.bridgeTx (fun _ => true) (.corroborate 5 true true 4 0)) =
      [(.bridge .challengedSuccess, [1])] ∧
    reports exEnv (run exEnv exBridgeChain exBridgeSteps) (.bridgeEv (fun _ => true) (.submitEvents 2 Discovery.exTrue)) =
      [(.bridge .invalidRange, [3])] ∧
    (run exEnv exBridgeChain (exBridgeSteps ++ [.bridgeTx (fun _ => true) (.corroborate 5 true true 4 0)])).tx.log =
      (run exEnv exBridgeChain exBridgeSteps).tx.log ++ [.result 5 [1] true] ∧
    (run exEnv exBridgeChain (exBridgeSteps ++ [.bridgeTx (fun _ => true) (.corroborate 5 true true 4 0),
      .bridgeEv (fun _ => true) (.submitEvents 2 Discovery.exTrue)])).book.events =
      [(.bridge .challengedSuccess, [1]), (.bridge .invalidRange, [3])] := by decide +kernel

end Verif.OffenceBook
