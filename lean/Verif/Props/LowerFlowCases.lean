import Verif.Props.LowerFlowProof

/-!
# C100: a lower without a usable proof can be requested again; a concrete history
-/

namespace Verif.LowerFlow
open Verif.TokenManager (Env Step LowersOk stageCount NotRootLower LowerCall)
open Verif.BridgeTx (Request LowerReq Obs outstanding)

variable {X : Type} (p : Params X)

/-- The bridge can take a request for a proof of these parameters: it is busy but its queue has room, or it is idle with nothing waiting and the
parameters can be hashed. -/
def HasRoom (s : State X) (ps : List UInt8) : Prop :=
  (s.active.isSome = true ∧ s.queue.length < p.maxQueued) ∨
  (s.active = none ∧ s.queue = [] ∧ (p.lowerHash (beVal ps) s.instanceId).isSome = true)

/-- **C100.** Whoever asks for a new proof of a lower whose proof failed, or is ready, gets it, when lowering is enabled and the
bridge has room: the lower is pending again, with the same parameters, and the bridge holds one request for it; balances and
the other lowers are unchanged. -/
theorem C100_can_be_requested_again (s : State X) (i : Nat) (ps : List UInt8) (who : Acct) (env : Env)
    (h : s.world.1.ready i = some ps ∨ (s.world.1.ready i = none ∧ s.world.1.failed i = some ps))
    (hen : s.world.1.lowersDisabled = false) (hroom : HasRoom p s ps) :
    let s' := step p s (.token env (.regenerateLowerProof who i))
    s'.world.1.pending i = some ps ∧
    s'.active.toList.map BridgeTx.Active.request ++ s'.queue =
      s.active.toList.map BridgeTx.Active.request ++ s.queue ++ [.lower ⟨i, beVal ps, palletId⟩] ∧
    s'.world.1.bal = s.world.1.bal ∧ s'.world.1.avt = s.world.1.avt ∧
    ∀ j, j ≠ i → s'.world.1.pending j = s.world.1.pending j ∧ s'.world.1.ready j = s.world.1.ready j ∧
      s'.world.1.failed j = s.world.1.failed j := by
  have key : ∃ w, TokenManager.step { env with bridgeOk := true } s.world.1 (.regenerateLowerProof who i) = (w, none) ∧
      w.pending = upd s.world.1.pending i (some ps) ∧ w.bal = s.world.1.bal ∧ w.avt = s.world.1.avt ∧
      ∀ j, j ≠ i → w.ready j = s.world.1.ready j ∧ w.failed j = s.world.1.failed j := by
    simp only [TokenManager.step, TokenManager.regenerateLowerProof, hen, Bool.false_eq_true, if_false]
    rcases h with h | ⟨h1, h2⟩
    · rw [h]
      refine ⟨_, rfl, rfl, rfl, rfl, fun j hj => ⟨upd_ne _ _ hj, rfl⟩⟩
    · rw [h1]; dsimp only; rw [h2]
      refine ⟨_, rfl, rfl, rfl, rfl, fun j hj => ⟨rfl, upd_ne _ _ hj⟩⟩
  obtain ⟨w, hk, k1, k2, k3, k4⟩ := key
  have hpi : w.pending i = some ps := by rw [k1]; exact upd_same _ _ _
  have hgen : ∃ t : State X, BridgeTx.generateLowerProof (bridgeEnv p) { s with world := (w, s.world.2) } i (beVal ps) palletId
        = (t, .ok ()) ∧ t.world = (w, s.world.2) ∧
      t.active.toList.map BridgeTx.Active.request ++ t.queue =
      s.active.toList.map BridgeTx.Active.request ++ s.queue ++ [.lower ⟨i, beVal ps, palletId⟩] := by
    unfold BridgeTx.generateLowerProof
    rw [if_neg (by decide +kernel)]
    dsimp only
    unfold BridgeTx.enqueueOrSetUp
    rcases hroom with ⟨h1, h2⟩ | ⟨h1, h0, h2⟩
    · rw [if_pos h1]
      unfold BridgeTx.queueRequest
      have h2' : s.queue.length < (bridgeEnv p).maxQueued := h2
      dsimp only
      rw [if_pos h2']
      exact ⟨_, rfl, rfl, by simp⟩
    · rw [if_neg (by simp [h1])]
      cases hh : p.lowerHash (beVal ps) s.instanceId with
      | none => rw [hh] at h2; cases h2
      | some v =>
        simp only [BridgeTx.setUp, BridgeTx.setUpLower, bridgeEnv, hh]
        exact ⟨_, rfl, rfl, by simp [h0, h1]⟩
  obtain ⟨t, hg, g1, g2⟩ := hgen
  intro s'
  have hs' : s' = t := by
    show tokenStep p s env (.regenerateLowerProof who i) = t
    unfold tokenStep
    simp only [requested, hk, hpi, hg]
  rw [hs', g1]
  refine ⟨hpi, g2, k2, k3, fun j hj => ⟨?_, k4 j hj⟩⟩
  show w.pending j = _
  rw [k1]; exact upd_ne _ _ hj

/-! ### A concrete history -/

/-- Everything hashes to 7, signature `10 * a + k` recovers to author `a`, two requests can wait. -/
def exParams : Params Nat where
  validUtf8 := fun _ => true
  fnHash := fun _ _ _ => some 7
  lowerHash := fun _ _ => some 7
  signer := fun _ sig => some (sig / 10)
  onResult := fun x _ _ _ => (x + 1, true)
  maxQueued := 2

open Verif.TokenManager (accA accB tok ethR env0)

/-- Four authors, account `A` holds 100 of `tok`. -/
def exStart : State Nat := BridgeTx.initial (TokenManager.s0, 0) BridgeTx.exAvn 5

/-- Two lowers are scheduled and executed; the first is confirmed by authors 1 and 2, the second is removed by the
administrator and asked for again by `B`. -/
def exOps : List (Op Nat) :=
  [.token env0 (.scheduleDirectLower accA accA tok 20 ethR), .token env0 (.scheduleDirectLower accA accA tok 30 ethR),
   .token env0 (.dispatchScheduled 0), .token env0 (.dispatchScheduled 1),
   .bridge (.confirm 0 11 1), .bridge (.confirm 1 12 1), .bridge (.confirm 0 21 2),
   .bridge .removeActive, .token env0 (.regenerateLowerProof accB 1)]

/-- Tables entries of a lower: scheduled, pending, ready, failed. -/
def exTables (s : State Nat) (i : Nat) : List Bool :=
  [(s.world.1.scheduled i).isSome, (s.world.1.pending i).isSome, (s.world.1.ready i).isSome, (s.world.1.failed i).isSome]

example : Genesis exStart ∧ Regular exStart exOps := by
  refine ⟨⟨rfl, rfl, rfl, fun i => by simp [exStart, BridgeTx.initial, stageCount, TokenManager.s0]⟩, ?_, by decide +kernel⟩
  intro env c i h
  simp [exOps] at h

example :
    let at_ (k : Nat) := run exParams exStart (exOps.take k)
    exTables (at_ 2) 0 = [true, false, false, false] ∧
    exTables (at_ 4) 0 = [false, true, false, false] ∧ exTables (at_ 4) 1 = [false, true, false, false] ∧
    requestsFor (at_ 4) 1 = (((at_ 4).world.1.pending 1).map (fun ps => Request.lower ⟨1, beVal ps, palletId⟩)).toList ∧
    (at_ 4).world.1.bal tok accA = 50 ∧
    exTables (at_ 7) 0 = [false, false, true, false] ∧ exTables (at_ 7) 1 = [false, true, false, false] ∧
    exTables (at_ 8) 1 = [false, false, false, true] ∧ exTables (at_ 9) 1 = [false, true, false, false] ∧
    exTables (at_ 9) 0 = [false, false, true, false] ∧ requestsFor (at_ 8) 1 = [] ∧ (requestsFor (at_ 9) 1).length = 1 := by
  decide +kernel

/-- The hypotheses of `C100_can_be_requested_again` after the removal. -/
example : HasRoom exParams (run exParams exStart (exOps.take 8)) [] ∧
    (run exParams exStart (exOps.take 8)).world.1.ready 1 = none ∧
    (run exParams exStart (exOps.take 8)).world.1.lowersDisabled = false :=
  ⟨.inr ⟨by decide +kernel, by decide +kernel, rfl⟩, by decide +kernel, by decide +kernel⟩

end Verif.LowerFlow
