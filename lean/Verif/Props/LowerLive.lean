import Verif.Props.LowerFlowCases

/-!
# C101: an active lower proof is completed once enough authors confirm it

The full claim ("a lower whose proof enough current authors confirm becomes ready to claim") is false of the code:
`C101_stuck_forever` and `C101_shrunk_author_set_stuck`.
-/

namespace Verif.BridgeTx

variable {W : Type} (env : Env W)

/-- What a confirmation does to an active lower proof that still needs some. -/
theorem confirm_lower_cases (s : State W) (a : Active) (r : LowerReq) (ha : s.active = some a) (hr : a.request = .lower r)
    (hlt : a.confirmations.length < Avn.requiredForSupermajority (nAuthors s))
    (hcap : Avn.requiredForSupermajority (nAuthors s) ≤ confirmationsLimit) (id sig x : Nat) :
    (step env s (.confirm id sig x) = s ∧ ¬ (id = r.lowerId ∧ Avn.isValidator s.avn.validators x = true ∧
        env.signer a.msgHash sig = some x ∧ sig ∉ a.confirmations)) ∨
    (sig ∉ a.confirmations ∧ (a.confirmations ++ [sig]).length < Avn.requiredForSupermajority (nAuthors s) ∧
      step env s (.confirm id sig x) =
        { s with active := some { a with confirmations := a.confirmations ++ [sig], lastUpdated := s.block } }) ∨
    (sig ∉ a.confirmations ∧ Avn.requiredForSupermajority (nAuthors s) ≤ (a.confirmations ++ [sig]).length ∧
      (a.confirmations ++ [sig]).length ≤ confirmationsLimit ∧
      step env s (.confirm id sig x) = completeLower env s r (a.confirmations ++ [sig])) := by
  simp only [step]
  by_cases h1 : Avn.isValidator s.avn.validators x = true
  swap
  · left; rw [if_neg h1]; exact ⟨rfl, fun h => h1 h.2.1⟩
  rw [if_pos h1]
  unfold addConfirmation
  rw [ha]
  dsimp only
  by_cases h2 : a.request.idMatches id = false
  · left; rw [if_pos h2]
    refine ⟨rfl, fun h => ?_⟩
    rw [hr] at h2
    simp [Request.idMatches, h.1] at h2
  rw [if_neg h2]
  have h3 : enoughConfirmations s a.request a.confirmations.length = false := by
    rw [hr]; simp [enoughConfirmations]; omega
  rw [if_neg (by rw [h3]; simp)]
  have h4 : isSender a x = false := by unfold isSender; rw [hr]
  rw [if_neg (by rw [h4]; simp)]
  by_cases h5 : verifySignature env s a.msgHash x sig = false
  · left; rw [if_pos h5]
    refine ⟨rfl, fun h => ?_⟩
    simp [verifySignature, h.2.1, h.2.2.1] at h5
  rw [if_neg h5]
  by_cases h6 : sig ∈ a.confirmations
  · left; rw [if_pos h6]
    exact ⟨rfl, fun h => h.2.2.2 h6⟩
  rw [if_neg h6, if_neg (by omega), hr]
  dsimp only
  right
  by_cases h7 : enoughConfirmations s (.lower r) (a.confirmations ++ [sig]).length = true
  · right
    rw [if_pos h7]
    have h8 : Avn.requiredForSupermajority (nAuthors s) ≤ (a.confirmations ++ [sig]).length := by
      simpa [enoughConfirmations] using h7
    refine ⟨h6, h8, ?_, rfl⟩
    simp; omega
  · left
    rw [if_neg h7]
    refine ⟨h6, ?_, rfl⟩
    simp [enoughConfirmations] at h7
    simpa using h7

/-- The same request with the same message hash and confirmations. -/
def SameProof (a b : Active) : Prop := b.request = a.request ∧ b.msgHash = a.msgHash ∧ b.confirmations = a.confirmations

/-- Nothing but a confirmation, an administrator's removal or a change of the author set matters to an active lower proof. -/
theorem lower_active_keeps (s : State W) (a : Active) (r : LowerReq) (ha : s.active = some a) (hr : a.request = .lower r)
    (op : Step W) (h1 : op ≠ .removeActive) (h2 : ∀ id sig x, op ≠ .confirm id sig x) :
    (∃ b, (step env s op).active = some b ∧ SameProof a b) ∧
      ((∀ w b n k l, op ≠ .external w b n k l) → (step env s op).avn = s.avn) := by
  have hsome : s.active.isSome = true := by rw [ha]; rfl
  have henq : ∀ (t : State W) (q : Request) (u : State W), t.active = s.active → t.avn = s.avn →
      enqueueOrSetUp env t q = .ok u → u.active = s.active ∧ u.avn = s.avn := by
    intro t q u e1 e2 h
    unfold enqueueOrSetUp at h
    rw [if_pos (by rw [e1]; exact hsome)] at h
    unfold queueRequest at h
    split at h
    · injection h with h; subst h; exact ⟨e1, e2⟩
    · cases h
  cases op with
  | publish name params caller rb =>
    have : (step env s (.publish name params caller rb)).active = s.active ∧
        (step env s (.publish name params caller rb)).avn = s.avn := by
      simp only [step, publish]
      by_cases c1 : env.validUtf8 name = false
      · rw [if_pos c1]; cases rb <;> exact ⟨rfl, rfl⟩
      rw [if_neg c1]
      by_cases c2 : name = []
      · rw [if_pos c2]; cases rb <;> exact ⟨rfl, rfl⟩
      rw [if_neg c2]
      by_cases c3 : name.length > 32
      · rw [if_pos c3]; cases rb <;> exact ⟨rfl, rfl⟩
      rw [if_neg c3]
      by_cases c4 : paramsFit params = false
      · rw [if_pos c4]; cases rb <;> exact ⟨rfl, rfl⟩
      rw [if_neg c4]
      by_cases c5 : caller.length > 50
      · rw [if_pos c5]; cases rb <;> exact ⟨rfl, rfl⟩
      rw [if_neg c5]
      cases hq : enqueueOrSetUp env { s with nextTxId := wrapInc32 s.nextTxId }
          (.send { txId := s.nextTxId, name := name, params := params, callerId := caller }) with
      | ok u =>
        obtain ⟨u1, u2⟩ := henq { s with nextTxId := wrapInc32 s.nextTxId } _ _ rfl rfl hq
        exact ⟨u1, u2⟩
      | error e => cases rb <;> exact ⟨rfl, rfl⟩
    exact ⟨⟨a, this.1.trans ha, rfl, rfl, rfl⟩, fun _ => this.2⟩
  | lowerProof id params caller =>
    have : (step env s (.lowerProof id params caller)).active = s.active ∧
        (step env s (.lowerProof id params caller)).avn = s.avn := by
      simp only [step, generateLowerProof]
      by_cases c : caller.length > 50
      · rw [if_pos c]; exact ⟨rfl, rfl⟩
      rw [if_neg c]
      cases hq : enqueueOrSetUp env s (.lower { lowerId := id, params := params, callerId := caller }) with
      | ok u => dsimp only; exact henq _ _ _ rfl rfl hq
      | error e => exact ⟨rfl, rfl⟩
    exact ⟨⟨a, this.1.trans ha, rfl, rfl, rfl⟩, fun _ => this.2⟩
  | confirm id sig x => exact absurd rfl (h2 id sig x)
  | ethTxHash id h x =>
    have hs : ∀ s', addEthTxHash s id h x = .ok s' → (∃ b, s'.active = some b ∧ SameProof a b) ∧ s'.avn = s.avn := by
      intro s' h
      unfold addEthTxHash at h
      rw [ha] at h; dsimp only at h
      split_ifs at h
      · injection h with h; subst h; exact ⟨⟨a, ha, rfl, rfl, rfl⟩, rfl⟩
      · split at h
        · injection h with h; subst h; exact ⟨⟨a, ha, rfl, rfl, rfl⟩, rfl⟩
        · split_ifs at h
          injection h with h; subst h; exact ⟨⟨_, rfl, rfl, rfl, rfl⟩, rfl⟩
    simp only [step]
    split
    · cases he : addEthTxHash s id h x with
      | ok s' => exact ⟨(hs s' he).1, fun _ => (hs s' he).2⟩
      | error e => exact ⟨⟨a, ha, rfl, rfl, rfl⟩, fun _ => rfl⟩
    · exact ⟨⟨a, ha, rfl, rfl, rfl⟩, fun _ => rfl⟩
  | corroborate id ok hv x rep =>
    have hs : ∀ s', addCorroboration env s id ok hv x rep = .ok s' →
        (∃ b, s'.active = some b ∧ SameProof a b) ∧ s'.avn = s.avn := by
      intro s' h
      unfold addCorroboration at h
      rw [ha] at h; dsimp only at h
      by_cases c1 : a.request.idMatches id = false
      · rw [if_pos c1] at h
        injection h with h; subst h; exact ⟨⟨a, ha, rfl, rfl, rfl⟩, rfl⟩
      rw [if_neg c1] at h
      cases hd : a.txData with
      | none => rw [hd] at h; injection h with h; subst h; exact ⟨⟨a, ha, rfl, rfl, rfl⟩, rfl⟩
      | some d =>
        rw [hd, hr] at h
        dsimp only at h
        by_cases d1 : rep ≠ d.replay
        · rw [if_pos d1] at h; cases h
        rw [if_neg d1] at h
        by_cases d2 : x = d.sender
        · rw [if_pos d2] at h; cases h
        rw [if_neg d2] at h
        by_cases d3 : x ∈ d.success ∨ x ∈ d.failure
        · rw [if_pos d3] at h; injection h with h; subst h; exact ⟨⟨a, ha, rfl, rfl, rfl⟩, rfl⟩
        rw [if_neg d3] at h
        by_cases d4 : (if hv = true then d.validHash else d.invalidHash).length ≥ confirmationsLimit
        · rw [if_pos d4] at h; cases h
        rw [if_neg d4] at h
        by_cases d5 : (if ok = true then d.success else d.failure).length ≥ confirmationsLimit
        · rw [if_pos d5] at h; cases h
        rw [if_neg d5] at h
        by_cases d6 : enoughCorroborations s
            (if ok = true then (addCorr d ok hv x).success else (addCorr d ok hv x).failure).length = true
        · rw [if_pos d6] at h; cases h
        rw [if_neg d6] at h
        injection h with h; subst h; exact ⟨⟨_, rfl, hr.symm, rfl, rfl⟩, rfl⟩
    simp only [step]
    split
    · cases he : addCorroboration env s id ok hv x rep with
      | ok s' => exact ⟨(hs s' he).1, fun _ => (hs s' he).2⟩
      | error e => exact ⟨⟨a, ha, rfl, rfl, rfl⟩, fun _ => rfl⟩
    · exact ⟨⟨a, ha, rfl, rfl, rfl⟩, fun _ => rfl⟩
  | removeActive => exact absurd rfl h1
  | setTxId id => exact ⟨⟨a, ha, rfl, rfl, rfl⟩, fun _ => rfl⟩
  | setInstance v i =>
    have : (step env s (.setInstance v i)).active = s.active ∧ (step env s (.setInstance v i)).avn = s.avn := by
      simp only [step, setInstance]
      by_cases c : v = false
      · rw [if_pos c]; exact ⟨rfl, rfl⟩
      · rw [if_neg c, ha]; dsimp only; rw [hr]; exact ⟨ha.symm ▸ rfl, rfl⟩
    exact ⟨⟨a, this.1.trans ha, rfl, rfl, rfl⟩, fun _ => this.2⟩
  | external w b n k l => exact ⟨⟨a, ha, rfl, rfl, rfl⟩, fun h => absurd rfl (h w b n k l)⟩

end Verif.BridgeTx

namespace Verif.LowerFlow
open Verif.TokenManager (Env Step LowersOk stageCount NotRootLower LowerCall)
open Verif.BridgeTx (Request LowerReq Obs outstanding notify WorldTold)

variable {X : Type} (p : Params X)

/-- A lower that is ready and no longer pending stays so, whatever notifications are delivered. -/
theorem ready_notified (i : Nat) (ps : List UInt8) (obs : List Obs) : ∀ w : World X, w.1.ready i = some ps → w.1.pending i = none →
    (obs.foldl (notify (bridgeEnv p)) w).1.ready i = some ps := by
  induction obs with
  | nil => intro w h _; exact h
  | cons o obs ih =>
    intro w h1 h2
    have hstep : (notify (bridgeEnv p) w o).1.ready i = some ps ∧ (notify (bridgeEnv p) w o).1.pending i = none := by
      cases o with
      | accepted r => exact ⟨h1, h2⟩
      | result id c ok => exact ⟨h1, h2⟩
      | lowerResult j c pr =>
        simp only [notify, bridgeEnv, TokenManager.processLowerProofResult]
        by_cases e : i = j
        · subst e; rw [h2]; exact ⟨h1, h2⟩
        · cases hj : w.1.pending j with
          | none => exact ⟨h1, h2⟩
          | some qs =>
            dsimp only
            split
            · exact ⟨h1, h2⟩
            · cases pr with
              | none => exact ⟨h1, by rw [← h2]; exact upd_ne _ _ e⟩
              | some q =>
                dsimp only [Option.map_some]
                split
                · exact ⟨by rw [← h1]; exact upd_ne _ _ e, by rw [← h2]; exact upd_ne _ _ e⟩
                · exact ⟨h1, by rw [← h2]; exact upd_ne _ _ e⟩
    exact ih _ hstep.1 hstep.2

/-- Completing the active request of a pending lower makes it ready. -/
theorem complete_ready (s : State X) (i : Nat) (ps : List UInt8) (confs : List Nat) (hp : s.world.1.pending i = some ps)
    (hc : confs.length ≤ BridgeTx.confirmationsLimit) :
    (BridgeTx.completeLower (bridgeEnv p) s ⟨i, beVal ps, palletId⟩ confs).world.1.ready i = some ps := by
  unfold BridgeTx.completeLower
  obtain ⟨obs, _, hw, _⟩ := BridgeTx.processNext_told (bridgeEnv p) { s with
    world := ((bridgeEnv p).onLower s.world i palletId (some (beVal ps, confs))).1
    log := s.log ++ [.lowerResult i palletId (some (beVal ps, confs))] }
  dsimp only
  rw [hw]
  have hl := proofLength_le confs hc
  have hon : ((bridgeEnv p).onLower s.world i palletId (some (beVal ps, confs))).1 = (toReady s.world.1 i ps, s.world.2) := by
    simp only [bridgeEnv, TokenManager.processLowerProofResult, hp, beq_self_eq_true, Bool.not_true, Bool.false_eq_true,
      if_false, Option.map_some, hl, if_true, toReady]
  dsimp only
  rw [hon]
  exact ready_notified p i ps obs _ (upd_same _ _ _) (upd_same _ _ _)

/-- A call of the token manager does not touch an active request or the author set. -/
theorem tokenStep_active (s : State X) (env : Env) (st : Step) (a : BridgeTx.Active) (ha : s.active = some a) :
    (tokenStep p s env st).active = some a ∧ (tokenStep p s env st).avn = s.avn := by
  unfold tokenStep
  dsimp only
  cases requested s.world.1 st with
  | none => exact ⟨ha, rfl⟩
  | some i =>
    dsimp only
    cases (TokenManager.step { env with bridgeOk := true } s.world.1 st).2 with
    | some e => exact ⟨ha, rfl⟩
    | none =>
      cases (TokenManager.step { env with bridgeOk := true } s.world.1 st).1.pending i with
      | none => exact ⟨ha, rfl⟩
      | some ps =>
        dsimp only
        unfold BridgeTx.generateLowerProof
        by_cases c : palletId.length > 50
        · rw [if_pos c]; exact ⟨ha, rfl⟩
        · rw [if_neg c]
          dsimp only
          unfold BridgeTx.enqueueOrSetUp
          rw [if_pos (by dsimp only; rw [ha]; rfl)]
          unfold BridgeTx.queueRequest
          dsimp only
          by_cases c2 : s.queue.length < (bridgeEnv p).maxQueued
          · rw [if_pos c2]; exact ⟨ha, rfl⟩
          · rw [if_neg c2]; exact ⟨ha, rfl⟩

/-- During `ops` the administrator does not remove the active request and the author set stays `vals`. -/
def Undisturbed (vals : List Avn.Validator) (ops : List (Op X)) : Prop :=
  Op.bridge .removeActive ∉ ops ∧
  ∀ w avn now block lifetime, Op.bridge (.external w avn now block lifetime) ∈ ops → avn.validators = vals

theorem active_pending {s : State X} (hi : Inv s) {a : BridgeTx.Active} {q : LowerReq} (ha : s.active = some a)
    (hq : a.request = .lower q) : q.callerId = palletId ∧ ∃ ps, s.world.1.pending q.lowerId = some ps ∧ q.params = beVal ps := by
  have hm : q ∈ lowers (outstanding s) := by
    unfold lowers outstanding
    rw [ha]
    simp [hq]
  exact ⟨hi.synced.own q hm, hi.synced.params q hm⟩

/-- One step of the joint system, seen from an active lower proof. -/
theorem flow_keeps (s : State X) (a : BridgeTx.Active) (q : LowerReq) (ha : s.active = some a) (hq : a.request = .lower q)
    (op : Op X) (h1 : op ≠ .bridge .removeActive) (h2 : ∀ id sig x, op ≠ .bridge (.confirm id sig x)) :
    (∃ b, (step p s op).active = some b ∧ BridgeTx.SameProof a b) ∧
      ((∀ w b n k l, op ≠ .bridge (.external w b n k l)) → (step p s op).avn = s.avn) := by
  cases op with
  | token env st =>
    have hres : step p s (.token env st) = s ∨ step p s (.token env st) = tokenStep p s env st := by
      cases st <;> first | exact .inr rfl | exact .inl rfl
    rcases hres with h | h
    · rw [h]; exact ⟨⟨a, ha, rfl, rfl, rfl⟩, fun _ => rfl⟩
    · rw [h]
      obtain ⟨t1, t2⟩ := tokenStep_active p s env st a ha
      exact ⟨⟨a, t1, rfl, rfl, rfl⟩, fun _ => t2⟩
  | bridge op =>
    by_cases c1 : ∃ i ps c, op = .lowerProof i ps c
    · obtain ⟨i, ps, c, rfl⟩ := c1
      exact ⟨⟨a, ha, rfl, rfl, rfl⟩, fun _ => rfl⟩
    by_cases c2 : ∃ w b n k l, op = .external w b n k l
    · obtain ⟨w, b, n, k, l, rfl⟩ := c2
      exact ⟨⟨a, ha, rfl, rfl, rfl⟩, fun h => absurd rfl (h w b n k l)⟩
    have hstep : step p s (.bridge op) = BridgeTx.step (bridgeEnv p) s op := by
      cases op <;> first | rfl | exact absurd ⟨_, _, _, rfl⟩ c1 | exact absurd ⟨_, _, _, _, _, rfl⟩ c2
    rw [hstep]
    obtain ⟨k1, k2⟩ := BridgeTx.lower_active_keeps (bridgeEnv p) s a q ha hq op (fun e => h1 (by rw [e]))
      (fun id sig x e => h2 id sig x (by rw [e]))
    exact ⟨k1, fun _ => k2 (fun w b n k l e => c2 ⟨w, b, n, k, l, e⟩)⟩

theorem flow_external_avn (s : State X) (w : World X) (avn : Avn.State) (n k l : Nat) :
    (step p s (.bridge (.external w avn n k l))).avn = avn := rfl

theorem completes_from (i q : Nat) (vals : List Avn.Validator) (after : List (Op X)) : ∀ (s : State X) (a : BridgeTx.Active)
    (sigs : List Nat), Inv s → Regular s after → s.active = some a → a.request = .lower ⟨i, q, palletId⟩ → s.avn.validators = vals →
    a.confirmations.length < Avn.requiredForSupermajority vals.length →
    Avn.requiredForSupermajority vals.length ≤ BridgeTx.confirmationsLimit →
    Undisturbed vals after → sigs.Nodup →
    (∀ g ∈ sigs, g ∉ a.confirmations ∧ ∃ x, Avn.isValidator vals x = true ∧ p.signer a.msgHash g = some x ∧
      Op.bridge (.confirm i g x) ∈ after) →
    Avn.requiredForSupermajority vals.length ≤ a.confirmations.length + sigs.length →
    ∃ first rest ps, after = first ++ rest ∧ beVal ps = q ∧ (run p s first).world.1.ready i = some ps := by
  induction after with
  | nil =>
    intro s a sigs _ _ _ _ _ hlt _ _ _ hs hen
    cases sigs with
    | nil => simp at hen; omega
    | cons g sigs => obtain ⟨_, x, _, _, hm⟩ := hs g (by simp); cases hm
  | cons op after ih =>
    intro s a sigs hi hreg ha hq hv hlt hcap hun hnd hs hen
    have hroot : ∀ env c i, op ≠ .token env (.rootExecuteLower c i) := fun env c i e => hreg.1 env c i (by rw [e]; simp)
    have hlen := hreg.2
    simp only [List.length_cons] at hlen
    obtain ⟨hi', _, hn'⟩ := inv_step p s op hi hroot (by omega)
    have hreg' : Regular (step p s op) after := ⟨fun env c i hm => hreg.1 env c i (by simp [hm]), by omega⟩
    have hun' : Undisturbed vals after := ⟨fun hm => hun.1 (by simp [hm]), fun w b n k l hm => hun.2 w b n k l (by simp [hm])⟩
    have lift : (∃ first rest ps, after = first ++ rest ∧ beVal ps = q ∧ (run p (step p s op) first).world.1.ready i = some ps) →
        ∃ first rest ps, op :: after = first ++ rest ∧ beVal ps = q ∧ (run p s first).world.1.ready i = some ps := by
      rintro ⟨first, rest, ps, e1, e2, e3⟩
      exact ⟨op :: first, rest, ps, by rw [e1]; rfl, e2, e3⟩
    by_cases hc : ∃ id sig x, op = .bridge (.confirm id sig x)
    · obtain ⟨id, sig, x, rfl⟩ := hc
      have hstep : step p s (.bridge (.confirm id sig x)) = BridgeTx.step (bridgeEnv p) s (.confirm id sig x) := rfl
      have hnv : BridgeTx.nAuthors s = vals.length := by unfold BridgeTx.nAuthors; rw [hv]
      rcases BridgeTx.confirm_lower_cases (bridgeEnv p) s a _ ha hq (by rw [hnv]; exact hlt) (by rw [hnv]; exact hcap) id sig x with
        ⟨h1, h2⟩ | ⟨h1, h2, h3⟩ | ⟨h1, h2, h3, h4⟩
      · refine lift (ih (step p s _) a sigs hi' hreg' (by rw [hstep, h1]; exact ha) hq (by rw [hstep, h1]; exact hv) hlt hcap hun'
          hnd ?_ hen)
        intro g hg
        obtain ⟨g1, y, g2, g3, g4⟩ := hs g hg
        refine ⟨g1, y, g2, g3, ?_⟩
        rcases List.mem_cons.1 g4 with h | h
        · exfalso
          simp only [Op.bridge.injEq, BridgeTx.Step.confirm.injEq] at h
          obtain ⟨rfl, rfl, rfl⟩ := h
          exact h2 ⟨rfl, by rw [hv]; exact g2, g3, g1⟩
        · exact h
      · refine lift (ih (step p s _) { a with confirmations := a.confirmations ++ [sig], lastUpdated := s.block } (sigs.erase sig)
          hi' hreg' (by rw [hstep, h3]) hq (by rw [hstep, h3]; exact hv) (by rw [← hnv]; exact h2) hcap hun'
          (hnd.erase _) ?_ ?_)
        · intro g hg
          rw [hnd.mem_erase_iff] at hg
          obtain ⟨g1, y, g2, g3, g4⟩ := hs g hg.2
          refine ⟨by simp [g1, hg.1], y, g2, g3, ?_⟩
          rcases List.mem_cons.1 g4 with h | h
          · exfalso
            simp only [Op.bridge.injEq, BridgeTx.Step.confirm.injEq] at h
            exact hg.1 h.2.1
          · exact h
        · have : sigs.length ≤ (sigs.erase sig).length + 1 := by
            rw [List.length_erase]; split <;> omega
          simp; omega
      · obtain ⟨_, ps, k1, k2⟩ := active_pending hi ha hq
        dsimp only at k1 k2
        refine ⟨[.bridge (.confirm id sig x)], after, ps, rfl, k2.symm, ?_⟩
        show (step p s (.bridge (.confirm id sig x))).world.1.ready i = some ps
        rw [hstep, h4, k2]
        exact complete_ready p s i ps _ k1 h3
    · obtain ⟨⟨b, k1, k2, k3, k4⟩, k5⟩ := flow_keeps p s a _ ha hq op (fun e => hun.1 (by rw [e]; simp))
        (fun id sig x e => hc ⟨id, sig, x, e⟩)
      have hv' : (step p s op).avn.validators = vals := by
        by_cases hx : ∃ w b n k l, op = .bridge (.external w b n k l)
        · obtain ⟨w, b, n, k, l, rfl⟩ := hx
          rw [flow_external_avn]; exact hun.2 w b n k l (by simp)
        · rw [k5 (fun w b n k l e => hx ⟨w, b, n, k, l, e⟩)]; exact hv
      refine lift (ih (step p s op) b sigs hi' hreg' k1 (by rw [k2]; exact hq) hv' (by rw [k4]; exact hlt) hcap hun' hnd ?_
        (by rw [k4]; exact hen))
      intro g hg
      obtain ⟨g1, y, g2, g3, g4⟩ := hs g hg
      rw [k4, k3]
      refine ⟨g1, y, g2, g3, ?_⟩
      rcases List.mem_cons.1 g4 with h | h
      · exact absurd ⟨i, g, y, h.symm⟩ hc
      · exact h

/-- **C101 (partial).** While the bridge works on the proof of a lower that still needs confirmations (at most 100 in total), the
administrator does not remove it and the author set does not change: once enough more authors' signatures over its hash have been
submitted, all different from each other and from those collected — in any order, with anything else happening in between — the lower
has become ready to claim, for exactly the parameters requested. Missing from the full claim: a change of the author set, see
`C101_stuck_forever`. -/
theorem C101_enough_confirmations_complete_partial (s0 : State X) (hg : Genesis s0) (before after : List (Op X))
    (hr : Regular s0 (before ++ after)) (a : BridgeTx.Active) (q : LowerReq)
    (ha : (run p s0 before).active = some a) (hq : a.request = .lower q) (vals : List Avn.Validator)
    (hv : (run p s0 before).avn.validators = vals)
    (hlt : a.confirmations.length < Avn.requiredForSupermajority vals.length)
    (hcap : Avn.requiredForSupermajority vals.length ≤ 100) (hun : Undisturbed vals after)
    (sigs : List Nat) (hnd : sigs.Nodup) (hen : Avn.requiredForSupermajority vals.length ≤ a.confirmations.length + sigs.length)
    (hs : ∀ g ∈ sigs, g ∉ a.confirmations ∧ ∃ x, Avn.isValidator vals x = true ∧ p.signer a.msgHash g = some x ∧
      Op.bridge (.confirm q.lowerId g x) ∈ after) :
    ∃ first rest ps, after = first ++ rest ∧ beVal ps = q.params ∧
      (run p s0 (before ++ first)).world.1.ready q.lowerId = some ps := by
  have hrb : Regular s0 before := ⟨fun env c i hm => hr.1 env c i (by simp [hm]), by
    have := hr.2; simp only [List.length_append] at this; omega⟩
  obtain ⟨hi, hn⟩ := inv_run p s0 hg before hrb
  have hra : Regular (run p s0 before) after := ⟨fun env c i hm => hr.1 env c i (by simp [hm]), by
    have := hr.2; simp only [List.length_append] at this; omega⟩
  obtain ⟨hown, _⟩ := active_pending hi ha hq
  obtain ⟨first, rest, ps, e1, e2, e3⟩ := completes_from p q.lowerId q.params vals after (run p s0 before) a sigs hi hra ha
    (by rw [hq, ← hown]) hv hlt hcap hun hnd hs hen
  exact ⟨first, rest, ps, e1, e2, by rw [run_append]; exact e3⟩

/-- **C101, the full claim is false of the code.** A lower proof that already holds as many confirmations as the current author set
requires is never completed: `add_confirmation` returns early. As long as the administrator does not remove it and the author set
does not grow beyond that, whatever is submitted, it stays the active request with the same confirmations, the lower stays pending,
and every other request waits behind it. -/
theorem C101_stuck_forever (s0 : State X) (hg : Genesis s0) (before after : List (Op X)) (hr : Regular s0 (before ++ after))
    (a : BridgeTx.Active) (q : LowerReq) (ha : (run p s0 before).active = some a) (hq : a.request = .lower q)
    (hen : Avn.requiredForSupermajority (run p s0 before).avn.validators.length ≤ a.confirmations.length)
    (hno : Op.bridge .removeActive ∉ after)
    (hsmall : ∀ w avn now block lifetime, Op.bridge (.external w avn now block lifetime) ∈ after →
      Avn.requiredForSupermajority avn.validators.length ≤ a.confirmations.length) :
    ∃ b ps, (run p s0 (before ++ after)).active = some b ∧ b.request = a.request ∧ b.confirmations = a.confirmations ∧
      (run p s0 (before ++ after)).world.1.pending q.lowerId = some ps ∧ beVal ps = q.params := by
  have key : ∃ b, (run p s0 (before ++ after)).active = some b ∧ BridgeTx.SameProof a b ∧
      Avn.requiredForSupermajority (run p s0 (before ++ after)).avn.validators.length ≤ a.confirmations.length := by
    clear hr
    induction after using List.reverseRecOn with
    | nil => exact ⟨a, by simpa using ha, ⟨rfl, rfl, rfl⟩, by simpa using hen⟩
    | append_singleton after op ih =>
      obtain ⟨b, b1, ⟨b2, b3, b4⟩, b5⟩ := ih (fun hm => hno (by simp [hm])) (fun w v n k l hm => hsmall w v n k l (by simp [hm]))
      rw [← List.append_assoc, run_snoc]
      generalize run p s0 (before ++ after) = s at b1 b5
      by_cases hc : ∃ id sig x, op = .bridge (.confirm id sig x)
      · obtain ⟨id, sig, x, rfl⟩ := hc
        have : step p s (.bridge (.confirm id sig x)) = s := by
          show BridgeTx.step (bridgeEnv p) s (.confirm id sig x) = s
          simp only [BridgeTx.step]
          split
          · unfold BridgeTx.addConfirmation
            rw [b1]
            dsimp only
            by_cases c : b.request.idMatches id = false
            · rw [if_pos c]; rfl
            · rw [if_neg c, if_pos (by rw [b2, hq, b4]; exact decide_eq_true b5)]; rfl
          · rfl
        rw [this]
        exact ⟨b, b1, ⟨b2, b3, b4⟩, b5⟩
      · obtain ⟨⟨c, k1, k2, k3, k4⟩, k5⟩ := flow_keeps p s b _ b1 (by rw [b2]; exact hq) op (fun e => hno (by rw [e]; simp))
          (fun id sig x e => hc ⟨id, sig, x, e⟩)
        refine ⟨c, k1, ⟨k2.trans b2, k3.trans b3, k4.trans b4⟩, ?_⟩
        by_cases hx : ∃ w v n k l, op = .bridge (.external w v n k l)
        · obtain ⟨w, v, n, k, l, rfl⟩ := hx
          rw [flow_external_avn]; exact hsmall w v n k l (by simp)
        · rw [k5 (fun w v n k l e => hx ⟨w, v, n, k, l, e⟩)]; exact b5
  obtain ⟨b, b1, ⟨b2, b3, b4⟩, _⟩ := key
  obtain ⟨_, ps, k1, k2⟩ := active_pending (inv_run p s0 hg _ hr).1 b1 (by rw [b2]; exact hq)
  exact ⟨b, ps, b1, b2, b4, k1, k2.symm⟩

open Verif.TokenManager (accA accB tok ethR env0)

/-- Author set reduced to authors 1 and 2. -/
def exSmaller : Avn.State := { validators := [⟨1, 1⟩, ⟨2, 2⟩], primaryIndex := 0 }

/-- Lower 0 gets one of the two confirmations it needs from four authors, then two authors leave. -/
def exShrink : List (Op Nat) :=
  [.token env0 (.scheduleDirectLower accA accA tok 20 ethR), .token env0 (.dispatchScheduled 0),
   .bridge (.confirm 0 11 1), .bridge (.external (TokenManager.s0, 0) exSmaller 0 1 1800)]

/-- **C101, the full claim is false of the code**, on a reachable state: after `exShrink` one confirmation would be enough for the
two remaining authors, and both confirming (again) changes nothing. -/
theorem C101_shrunk_author_set_stuck :
    let s := run exParams exStart exShrink
    let s' := run exParams exStart (exShrink ++ [.bridge (.confirm 0 21 2), .bridge (.confirm 0 12 1), .bridge (.confirm 0 11 1)])
    Avn.requiredForSupermajority s.avn.validators.length = 1 ∧ s.active.map (·.confirmations) = some [11] ∧
    s'.active = s.active ∧ exTables s' 0 = [false, true, false, false] := by decide +kernel

/-- Non-vacuity of `C101_enough_confirmations_complete_partial`: the state after two dispatches, then two confirmations of lower 0. -/
example :
    let s := run exParams exStart (exOps.take 4)
    (s.active.map (fun a => (a.msgHash, a.confirmations))) = some (7, []) ∧
    Avn.requiredForSupermajority s.avn.validators.length = 2 ∧
    Avn.isValidator s.avn.validators 1 = true ∧ Avn.isValidator s.avn.validators 2 = true ∧
    exParams.signer 7 11 = some 1 ∧ exParams.signer 7 21 = some 2 := by decide +kernel

end Verif.LowerFlow
