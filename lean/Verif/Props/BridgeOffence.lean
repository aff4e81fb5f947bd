import Verif.Model.BridgeOffence
import Verif.Props.EthBridgeTx
import Mathlib.Data.List.Perm.Subperm

/-!
# Properties C107 and C108: whom the bridge reports for an offence

`stepTx` and `stepEv` are the calls of the two halves of the bridge together with the offence reports they make.
-/

namespace Verif.BridgeOffence

/-! ### The instrumented model is the model -/

section Tx

open BridgeTx

variable {W : Type} (env : Env W)

theorem completeR_state (s : State W) (r : SendReq) (d : TxData) (ok : Bool) :
    (completeR env s r d ok).map Prod.fst = completeTransaction env s r d ok := by
  unfold completeR completeTransaction
  dsimp only
  by_cases h : (env.onResult s.world r.txId r.callerId ok).2 = false
  · rw [if_pos h, if_pos h]; rfl
  · rw [if_neg h, if_neg h]; rfl

theorem finalizeR_state (s : State W) (r : SendReq) (d : TxData) (ok : Bool) :
    (finalizeR env s r d ok).map Prod.fst = finalizeState env s r d ok := by
  unfold finalizeR finalizeState
  by_cases h : (!ok && enoughCorroborations s d.invalidHash.length) = true
  · rw [if_pos h, if_pos h]
    cases setUpTx env s r (min (d.replay + 1) 65535) <;> rfl
  · rw [if_neg h, if_neg h, completeR_state]

theorem corroborateR_state (s : State W) (id : Nat) (ok hv : Bool) (a rep : Nat) :
    (corroborateR env s id ok hv a rep).map Prod.fst = addCorroboration env s id ok hv a rep := by
  unfold corroborateR addCorroboration
  cases s.active with
  | none => rfl
  | some req =>
    dsimp only
    by_cases h1 : req.request.idMatches id = false
    · rw [if_pos h1, if_pos h1]; rfl
    rw [if_neg h1, if_neg h1]
    cases req.txData with
    | none => rfl
    | some d =>
      dsimp only
      by_cases h2 : rep ≠ d.replay
      · rw [if_pos h2, if_pos h2]; rfl
      rw [if_neg h2, if_neg h2]
      by_cases h3 : a = d.sender
      · rw [if_pos h3, if_pos h3]; rfl
      rw [if_neg h3, if_neg h3]
      by_cases h4 : a ∈ d.success ∨ a ∈ d.failure
      · rw [if_pos h4, if_pos h4]; rfl
      rw [if_neg h4, if_neg h4]
      by_cases h5 : (if hv then d.validHash else d.invalidHash).length ≥ confirmationsLimit
      · rw [if_pos h5, if_pos h5]; rfl
      rw [if_neg h5, if_neg h5]
      by_cases h6 : (if ok then d.success else d.failure).length ≥ confirmationsLimit
      · rw [if_pos h6, if_pos h6]; rfl
      rw [if_neg h6, if_neg h6]
      by_cases h7 : enoughCorroborations s (if ok then (addCorr d ok hv a).success else (addCorr d ok hv a).failure).length = true
      · rw [if_pos h7, if_pos h7]
        cases req.request with
        | send r => exact finalizeR_state env s r _ ok
        | lower r => rfl
      · rw [if_neg h7, if_neg h7]; rfl

theorem stepTx_state (s : State W) (op : Step W) : (stepTx env s op).1 = step env s op := by
  cases op with
  | corroborate id ok hv a rep =>
    unfold stepTx
    simp only [step]
    by_cases h : Avn.isValidator s.avn.validators a = true
    · rw [if_pos h, if_pos h, ← corroborateR_state]
      cases corroborateR env s id ok hv a rep <;> rfl
    · rw [if_neg h, if_neg h]
  | _ => rfl

/-! ### Reports about outcomes -/

/-- The accounts whose recorded report of the outcome contradicts `ok`. -/
def contradicting (d : TxData) (ok : Bool) : List Nat := if ok then d.failure else d.success

/-- The accounts whose recorded report of the outcome is `ok`. -/
def agreeing (d : TxData) (ok : Bool) : List Nat := if ok then d.success else d.failure

theorem txReports_addCorr (d : TxData) (ok hv : Bool) (a : Nat) : txReports (addCorr d ok hv a) ok = txReports d ok := by
  unfold txReports
  rw [addCorr_success, addCorr_failure, (addCorr_rest d ok hv a).1]
  cases ok <;> rfl

/-- The reports of a call: none and no outcome, or those of the outcome it decides. -/
theorem stepTx_cases (s : State W) (id : Nat) (ok hv : Bool) (a rep : Nat) :
    ((stepTx env s (.corroborate id ok hv a rep)).2 = [] ∧ (step env s (.corroborate id ok hv a rep)).log = s.log) ∨
      ∃ req r d more, s.active = some req ∧ req.request = .send r ∧ req.txData = some d ∧ r.txId = id ∧
        (step env s (.corroborate id ok hv a rep)).log = s.log ++ .result r.txId r.callerId ok :: more ∧
        (stepTx env s (.corroborate id ok hv a rep)).2 = txReports d ok := by
  by_cases hval : Avn.isValidator s.avn.validators a = true
  swap
  · left
    unfold stepTx
    simp only [step]
    rw [if_neg hval, if_neg hval]
    exact ⟨rfl, rfl⟩
  have hstate := stepTx_state env s (.corroborate id ok hv a rep)
  have hrep : (stepTx env s (.corroborate id ok hv a rep)) =
      (match corroborateR env s id ok hv a rep with | .ok r => r | .error _ => (s, [])) := by
    unfold stepTx
    dsimp only
    rw [if_pos hval]
    rfl
  rw [← hstate, hrep]
  unfold corroborateR
  cases ha : s.active with
  | none => exact .inl ⟨rfl, rfl⟩
  | some req =>
    dsimp only
    by_cases h1 : req.request.idMatches id = false
    · rw [if_pos h1]; exact .inl ⟨rfl, rfl⟩
    rw [if_neg h1]
    cases hd : req.txData with
    | none => exact .inl ⟨rfl, rfl⟩
    | some d =>
      dsimp only
      by_cases h2 : rep ≠ d.replay
      · rw [if_pos h2]; exact .inl ⟨rfl, rfl⟩
      rw [if_neg h2]
      by_cases h3 : a = d.sender
      · rw [if_pos h3]; exact .inl ⟨rfl, rfl⟩
      rw [if_neg h3]
      by_cases h4 : a ∈ d.success ∨ a ∈ d.failure
      · rw [if_pos h4]; exact .inl ⟨rfl, rfl⟩
      rw [if_neg h4]
      by_cases h5 : (if hv then d.validHash else d.invalidHash).length ≥ confirmationsLimit
      · rw [if_pos h5]; exact .inl ⟨rfl, rfl⟩
      rw [if_neg h5]
      by_cases h6 : (if ok then d.success else d.failure).length ≥ confirmationsLimit
      · rw [if_pos h6]; exact .inl ⟨rfl, rfl⟩
      rw [if_neg h6]
      by_cases h7 : enoughCorroborations s (if ok then (addCorr d ok hv a).success else (addCorr d ok hv a).failure).length = true
      swap
      · rw [if_neg h7]; exact .inl ⟨rfl, rfl⟩
      rw [if_pos h7]
      cases hr : req.request with
      | lower r => exact .inl ⟨rfl, rfl⟩
      | send r =>
        dsimp only
        unfold finalizeR
        by_cases h8 : (!ok && enoughCorroborations s (addCorr d ok hv a).invalidHash.length) = true
        · rw [if_pos h8]
          cases hset : setUpTx env s r (min ((addCorr d ok hv a).replay + 1) 65535) with
          | error e => exact .inl ⟨rfl, rfl⟩
          | ok s' =>
            obtain ⟨x, avn, -, -, rfl⟩ := setUpTx_ok env hset
            exact .inl ⟨rfl, rfl⟩
        · rw [if_neg h8]
          unfold completeR
          dsimp only
          by_cases h9 : (env.onResult s.world r.txId r.callerId ok).2 = false
          · rw [if_pos h9]; exact .inl ⟨rfl, rfl⟩
          · rw [if_neg h9]
            right
            have hid : r.txId = id := by
              rw [hr] at h1
              simpa [Request.idMatches] using h1
            have hfin := fun mid h1 h2 h3 => processNext_finished env s mid (.result r.txId r.callerId ok) h1 h2 h3
            obtain ⟨dropped, hl, -⟩ := hfin { s with
              world := (env.onResult s.world r.txId r.callerId ok).1
              settled := upd s.settled r.txId (some ⟨r.name, (addCorr d ok hv a).params, (addCorr d ok hv a).sender,
                if ok && enoughCorroborations s (addCorr d ok hv a).invalidHash.length then 0 else (addCorr d ok hv a).ethTxHash, ok⟩)
              log := s.log ++ [.result r.txId r.callerId ok] } rfl rfl rfl
            refine ⟨req, r, d, dropped.map failObs, rfl, hr, hd, hid, ?_, txReports_addCorr d ok hv a⟩
            dsimp only
            rw [hl]
            simp

/-- **C107, outcomes.** Suppose the last call of a history is an `add_corroboration` of `a` that settles the active transaction `r` with
outcome `ok`. If some account's recorded report contradicts `ok`, the call files one report: of the matching type, in the name of the
assigned sender, about exactly the accounts recorded with the contrary outcome; otherwise it files none. Those accounts are pairwise
different, each called `add_corroboration` with the contrary outcome as an author during the current attempt, and none of them is the sender,
`a`, or recorded with outcome `ok`. -/
theorem C107_contradicting_votes_are_reported (s0 : State W) (h0 : s0.active = none) (steps : List (Step W)) (id : Nat) (ok hv : Bool)
    (a rep : Nat) (req : Active) (r : SendReq) (d : TxData) (hact : (run env s0 steps).active = some req) (hr : req.request = .send r)
    (hd : req.txData = some d)
    (hlog : ∃ ok' more, (run env s0 (steps ++ [.corroborate id ok hv a rep])).log =
      (run env s0 steps).log ++ .result r.txId r.callerId ok' :: more) :
    (stepTx env (run env s0 steps) (.corroborate id ok hv a rep)).2 =
      (if contradicting d ok = [] then []
        else [⟨if ok then .challengedSuccess else .challengedFailure, d.sender, contradicting d ok⟩]) ∧
    (contradicting d ok).Nodup ∧
    ∀ x ∈ contradicting d ok, Corroborated env s0 steps id (!ok) x ∧ x ≠ d.sender ∧ x ≠ a ∧ x ∉ agreeing d ok := by
  obtain ⟨ok', more, hlog⟩ := hlog
  obtain ⟨i1, i2, i3, i4⟩ := run_corrInv env s0 h0 steps req d r hact hd hr
  rw [run_snoc] at hlog
  have hc := stepTx_cases env (run env s0 steps) id ok hv a rep
  have hview := step_view env (run env s0 steps) (.corroborate id ok hv a rep)
  generalize hs : run env s0 steps = s at *
  rcases hc with ⟨-, hl⟩ | ⟨req', r', d', more', k1, k2, k3, k4, k5, k6⟩
  · rw [hl] at hlog; simp at hlog
  rw [hact] at k1; cases k1
  rw [hd] at k3; cases k3
  rw [hr] at k2; cases k2
  have hna : a ∉ d.success ∧ a ∉ d.failure := by
    generalize step env s (.corroborate id ok hv a rep) = s' at hview k5
    cases hview with
    | quiet op s' ha hq hl hn => rw [hl] at k5; simp at k5
    | queued op q s' ha hlen ha' hq hl hn => rw [hl] at k5; have := List.append_cancel_left k5; simp at this
    | activated op q a s' ha ha' hf hq hl hn => rw [hl] at k5; have := List.append_cancel_left k5; simp at this
    | corroborated _ _ _ _ _ req2 d2 ha => simp at k5
    | reset op req q a s' ha hr ha' hf hop hq hl hn => rw [hl] at k5; simp at k5
    | decided _ _ _ _ _ req' d' q s' ha hr' hid hd' hrep hauth hns hnew hen hfin =>
      rw [hact] at ha; cases ha
      rw [hd] at hd'; cases hd'
      exact hnew
  rw [List.nodup_append] at i1
  simp only [List.mem_append, not_or] at i2
  refine ⟨?_, ?_, ?_⟩
  · rw [k6]
    unfold txReports contradicting
    cases ok <;> rfl
  · cases ok
    · exact i1.1
    · exact i1.2.1
  · intro x hx
    cases ok with
    | true =>
      refine ⟨k4 ▸ i4 x hx, fun e => i2.2 (e ▸ hx), fun e => hna.2 (e ▸ hx), fun h => ?_⟩
      exact i1.2.2 x h x hx rfl
    | false =>
      refine ⟨k4 ▸ i3 x hx, fun e => i2.1 (e ▸ hx), fun e => hna.1 (e ▸ hx), fun h => ?_⟩
      exact i1.2.2 x hx x h rfl

/-- **C107, nothing else is reported (outcomes).** A call that files a report is an `add_corroboration` that settles the active transaction
with the outcome it names. -/
theorem C107_only_outcomes_are_reported (s : State W) (op : Step W) (h : (stepTx env s op).2 ≠ []) :
    ∃ id ok hv a rep req r d more, op = .corroborate id ok hv a rep ∧ s.active = some req ∧ req.request = .send r ∧ req.txData = some d ∧
      (step env s op).log = s.log ++ .result r.txId r.callerId ok :: more := by
  cases op with
  | corroborate id ok hv a rep =>
    rcases stepTx_cases env s id ok hv a rep with ⟨h1, -⟩ | ⟨req, r, d, more, k1, k2, k3, k4, k5, k6⟩
    · exact absurd h1 h
    · exact ⟨id, ok, hv, a, rep, req, r, d, more, rfl, k1, k2, k3, k5⟩
  | _ => exact absurd rfl h

/-- **C107, recorded votes are kept.** An account recorded with an outcome for the active transaction stays recorded until the transaction
is settled or replayed by a corroboration, or removed, or the bridge instance is changed. -/
theorem C107_votes_stay_recorded (s : State W) (op : Step W) (req : Active) (d : TxData) (hact : s.active = some req)
    (hd : req.txData = some d) (ok : Bool) (x : Nat) (hx : x ∈ agreeing d ok) :
    (∃ req' d', (step env s op).active = some req' ∧ req'.request = req.request ∧ req'.txData = some d' ∧ x ∈ agreeing d' ok) ∨
    op = .removeActive ∨ (∃ v i, op = .setInstance v i) ∨
    (∃ id sig a, op = .confirm id sig a ∧ ∃ r, req.request = .lower r) ∨
    ∃ id ok' hv a rep, op = .corroborate id ok' hv a rep ∧
      ((∃ r more, req.request = .send r ∧ (step env s op).log = s.log ++ .result r.txId r.callerId ok' :: more) ∨
        ∃ req' d', (step env s op).active = some req' ∧ req'.request = req.request ∧ req'.txData = some d' ∧
          d'.replay = min (d.replay + 1) 65535) := by
  have hv := step_view env s op
  generalize step env s op = s' at hv
  cases hv with
  | quiet op s' ha hq hl hn => exact .inl ⟨req, d, by rw [ha]; exact hact, rfl, hd, hx⟩
  | queued op q s' ha hlen ha' hq hl hn => exact .inl ⟨req, d, by rw [ha']; exact hact, rfl, hd, hx⟩
  | activated op q a s' ha ha' hf hq hl hn => rw [hact] at ha; cases ha
  | confirmed id sig author req' ha =>
    rw [hact] at ha; cases ha
    exact .inl ⟨_, d, rfl, rfl, hd, hx⟩
  | lowerDone id sig author req' q s' ha hr =>
    rw [hact] at ha; cases ha
    exact .inr (.inr (.inr (.inl ⟨id, sig, author, rfl, q, hr⟩)))
  | hashed id h author req' d' ha hid hd' h0 hsend =>
    rw [hact] at ha; cases ha
    rw [hd] at hd'; cases hd'
    refine .inl ⟨_, _, rfl, rfl, rfl, ?_⟩
    cases ok <;> exact hx
  | corroborated id ok' hv author rep req' d' ha hid hd' hrep hauth hns hnew =>
    rw [hact] at ha; cases ha
    rw [hd] at hd'; cases hd'
    refine .inl ⟨_, _, rfl, rfl, rfl, ?_⟩
    unfold agreeing at hx ⊢
    rw [addCorr_success, addCorr_failure]
    cases ok <;> cases ok' <;> simp at hx ⊢ <;> simp [hx]
  | decided id ok' hv author rep req' d' q s' ha hr hid hd' hrep hauth hns hnew hen hfin =>
    rw [hact] at ha; cases ha
    obtain ⟨dropped, hl, -⟩ := hfin
    refine .inr (.inr (.inr (.inr ⟨id, ok', hv, author, rep, rfl, .inl ⟨q, dropped.map failObs, hr, ?_⟩⟩)))
    rw [hl]; simp
  | removed req' s' ha hfin => exact .inr (.inl rfl)
  | reset op req' q a s' ha hr ha' hf hop hq hl hn =>
    rw [hact] at ha; cases ha
    rcases hop with h | ⟨id, ok', hv, x, rep, rfl, d1, d2, e1, e2, e3⟩
    · exact .inr (.inr (.inl h))
    · rw [hd] at e1; cases e1
      exact .inr (.inr (.inr (.inr ⟨id, ok', hv, x, rep, rfl, .inr ⟨a, d2, ha', by rw [hf.1, hr], e2, e3⟩⟩)))

/-! ### C108, outcomes -/

/-- The accounts not in `bad` report of each attempt at a transaction its true outcome. -/
def Truthful (truth : Option (Request × Option (Nat × Nat × Nat)) → Bool) (bad : List Nat) (s0 : State W) (steps : List (Step W)) : Prop :=
  ∀ pre post id ok hv x rep, steps = pre ++ .corroborate id ok hv x rep :: post → x ∉ bad → ok = truth (attempt (run env s0 pre))

theorem truthful_inv (truth : Option (Request × Option (Nat × Nat × Nat)) → Bool) (bad : List Nat) (s0 : State W) (h0 : s0.active = none)
    (steps : List (Step W)) (ht : Truthful env truth bad s0 steps) (req : Active) (d : TxData)
    (hact : (run env s0 steps).active = some req) (hd : req.txData = some d) (ok : Bool) (x : Nat) (hx : x ∈ agreeing d ok) (hb : x ∉ bad) :
    ok = truth (attempt (run env s0 steps)) := by
  induction steps using List.reverseRecOn generalizing req d with
  | nil => simp [run, h0] at hact
  | append_singleton steps op ih =>
    have ih' := ih (fun pre post id ok hv x rep he => ht pre (post ++ [op]) id ok hv x rep (by rw [he]; simp))
    rw [run_snoc] at hact ⊢
    have hv := step_view env (run env s0 steps) op
    have hempty : ∀ q : Request, Fresh env q req → False := by
      intro q hf
      obtain ⟨e1, e2, -⟩ := hf.2.2.1 d hd
      unfold agreeing at hx
      rw [e1, e2] at hx
      cases ok <;> simp at hx
    generalize hs : run env s0 steps = s at hv ih'
    generalize hs' : step env s op = s' at hv
    have hact' : s'.active = some req := by rw [← hs', ← hs]; exact hact
    clear hact
    cases hv with
    | quiet op s' ha hq hl hn =>
      rw [ha] at hact'
      have hatt : attempt s' = attempt s := by simp [attempt, ha]
      rw [hatt]; exact ih' req d hact' hd hx
    | queued op q s' ha hlen ha' hq hl hn =>
      rw [ha'] at hact'
      have hatt : attempt s' = attempt s := by simp [attempt, ha']
      rw [hatt]; exact ih' req d hact' hd hx
    | activated op q a s' ha ha' hf hq hl hn =>
      rw [ha'] at hact'; cases hact'; exact absurd hf (hempty _)
    | confirmed id sig author req' ha =>
      simp only [Option.some.injEq] at hact'
      subst hact'
      have hatt : attempt { s with active := some { req' with confirmations := req'.confirmations ++ [sig], lastUpdated := s.block } } = attempt s := by
        simp [attempt, ha]
      rw [hatt]; exact ih' req' d ha hd hx
    | lowerDone id sig author req' q s' ha hr hid hauth hver hnew hen hfin =>
      obtain ⟨_, _, _, _, _, hf⟩ := hfin
      exact absurd (hf req hact') (hempty _)
    | hashed id h author req' d' ha hid hd' h0 hsend =>
      simp only [Option.some.injEq] at hact'
      subst hact'
      simp only [Option.some.injEq] at hd
      subst hd
      have hatt : attempt { s with active := some { req' with txData := some { d' with ethTxHash := h }, lastUpdated := s.block } } = attempt s := by
        simp [attempt, ha, hd']
      rw [hatt]; exact ih' req' d' ha hd' (by cases ok <;> exact hx)
    | corroborated id ok' hv author rep req' d' ha hid hd' hrep hauth hns hnew =>
      simp only [Option.some.injEq] at hact'
      subst hact'
      simp only [Option.some.injEq] at hd
      subst hd
      obtain ⟨a1, a2, a3, a4⟩ := addCorr_rest d' ok' hv author
      have hatt : attempt { s with
          active := some { req' with txData := some (addCorr d' ok' hv author), lastUpdated := s.block } } = attempt s := by
        simp [attempt, ha, hd', a1, a3, a4]
      rw [hatt]
      by_cases hmem : x ∈ agreeing d' ok
      · exact ih' req' d' ha hd' hmem
      · unfold agreeing at hx hmem
        rw [addCorr_success, addCorr_failure] at hx
        have : x = author ∧ ok = ok' := by
          cases ok <;> cases ok' <;> simp at hx hmem ⊢ <;> simp_all
        obtain ⟨rfl, rfl⟩ := this
        have := ht steps [] id ok hv x rep rfl hb
        rw [hs] at this; exact this
    | decided id ok' hv author rep req' d' q s' ha hr hid hd' hrep hauth hns hnew hen hfin =>
      obtain ⟨_, _, _, _, _, hf⟩ := hfin
      exact absurd (hf req hact') (hempty _)
    | removed req' s' ha hfin =>
      obtain ⟨_, _, _, _, _, hf⟩ := hfin
      exact absurd (hf req hact') (hempty _)
    | reset op req' q a s' ha hr ha' hf hop hq hl hn =>
      rw [ha'] at hact'; cases hact'; exact absurd hf (hempty _)

/-- **C108, outcomes.** If all but fewer than the quorum of accounts report of each attempt its true outcome, then in every history an
account that does so is never reported, and the outcome told to the originating pallet is the true one. -/
theorem C108_truthful_never_reported (truth : Option (Request × Option (Nat × Nat × Nat)) → Bool) (bad : List Nat) (s0 : State W)
    (h0 : s0.active = none) (steps : List (Step W)) (op : Step W) (ht : Truthful env truth bad s0 (steps ++ [op]))
    (hn : 0 < (run env s0 steps).avn.validators.length ∧ (run env s0 steps).avn.validators.length < 2 ^ 32)
    (hfew : bad.length < Avn.requiredFor ((run env s0 steps).avn.validators.length - 1)) :
    (∀ r ∈ (stepTx env (run env s0 steps) op).2, ∀ x ∈ r.who, x ∈ bad) ∧
    ∀ id ok hv a rep req r c ok' more, op = .corroborate id ok hv a rep → (run env s0 steps).active = some req → req.request = .send r →
      (run env s0 (steps ++ [op])).log = (run env s0 steps).log ++ .result r.txId c ok' :: more →
      ok' = truth (attempt (run env s0 steps)) := by
  have ht' : Truthful env truth bad s0 steps :=
    fun pre post id ok hv x rep he => ht pre (post ++ [op]) id ok hv x rep (by rw [he]; simp)
  have key : ∀ id ok hv a rep req r d more, op = .corroborate id ok hv a rep → (run env s0 steps).active = some req →
      req.request = .send r → req.txData = some d →
      (run env s0 (steps ++ [op])).log = (run env s0 steps).log ++ .result r.txId r.callerId ok :: more →
      ok = truth (attempt (run env s0 steps)) := by
    rintro id ok hv a rep req r d more rfl hact hr hd hlog
    obtain ⟨i1, i2, -, -⟩ := run_corrInv env s0 h0 steps req d r hact hd hr
    have hinv := truthful_inv env truth bad s0 h0 steps ht' req d hact hd ok
    have hlast := fun hb : a ∉ bad => ht steps [] id ok hv a rep rfl hb
    rw [run_snoc] at hlog
    have hview := step_view env (run env s0 steps) (.corroborate id ok hv a rep)
    generalize run env s0 steps = s at hview hlog hact hn hfew hinv hlast
    generalize step env s (.corroborate id ok hv a rep) = s' at hview hlog
    cases hview with
    | quiet op s' ha hq hl hn => rw [hl] at hlog; simp at hlog
    | queued op q s' ha hlen ha' hq hl hn => rw [hl] at hlog; have := List.append_cancel_left hlog; simp at this
    | activated op q a s' ha ha' hf hq hl hn => rw [hl] at hlog; have := List.append_cancel_left hlog; simp at this
    | corroborated _ _ _ _ _ req2 d2 ha => simp at hlog
    | reset op req q a s' ha hr ha' hf hop hq hl hn => rw [hl] at hlog; simp at hlog
    | decided _ _ _ _ _ req' d' q s' ha hr' hid hd' hrep hauth hns hnew hen hfin =>
      rw [hact] at ha; cases ha
      rw [hd] at hd'; cases hd'
      rw [addCorr_success, addCorr_failure] at hen
      unfold enoughCorroborations nAuthors at hen
      have hw : (s.avn.validators.length + pow32 - 1) % pow32 = s.avn.validators.length - 1 := by
        unfold pow32; omega
      rw [hw] at hen
      have hlen : Avn.requiredFor (s.avn.validators.length - 1) ≤ (agreeing d ok ++ [a]).length := by
        unfold agreeing
        cases ok <;> simpa using hen
      have hnd : (agreeing d ok ++ [a]).Nodup := by
        rw [List.nodup_append] at i1
        rw [List.nodup_append]
        refine ⟨?_, by simp, ?_⟩
        · cases ok
          · exact i1.2.1
          · exact i1.1
        · intro x hx y hy hxy
          have hya : y = a := by simpa using hy
          subst hya; subst hxy
          cases ok
          · exact hnew.2 hx
          · exact hnew.1 hx
      have hx : ∃ x ∈ agreeing d ok ++ [a], x ∉ bad := by
        refine Classical.byContradiction (fun hno => ?_)
        have hsub : agreeing d ok ++ [a] ⊆ bad := fun x hx => Classical.byContradiction (fun h => hno ⟨x, hx, h⟩)
        have := (hnd.subperm hsub).length_le
        omega
      obtain ⟨x, hxw, hxb⟩ := hx
      rcases List.mem_append.1 hxw with h | h
      · exact hinv x h hxb
      · have : x = a := by simpa using h
        subst this
        exact hlast hxb
  refine ⟨?_, ?_⟩
  · intro rp hrp x hx
    by_cases hb : x ∈ bad
    · exact hb
    exfalso
    cases op with
    | corroborate id ok hv a rep =>
      rcases stepTx_cases env (run env s0 steps) id ok hv a rep with ⟨h1, -⟩ | ⟨req, r, d, more, k1, k2, k3, k4, k5, k6⟩
      · rw [h1] at hrp; simp at hrp
      · rw [k6] at hrp
        have h1 := key id ok hv a rep req r d more rfl k1 k2 k3 (by rw [run_snoc]; exact k5)
        have hmem : x ∈ agreeing d (!ok) := by
          unfold txReports at hrp
          unfold agreeing
          cases ok with
          | true =>
            simp only [if_true] at hrp
            split_ifs at hrp with hemp
            · simp at hrp
            · simp only [List.mem_singleton] at hrp; subst hrp; exact hx
          | false =>
            simp only [Bool.false_eq_true, if_false] at hrp
            split_ifs at hrp with hemp
            · simp at hrp
            · simp only [List.mem_singleton] at hrp; subst hrp; exact hx
        have h2 := truthful_inv env truth bad s0 h0 steps ht' req d k1 k3 (!ok) x hmem hb
        rw [← h1] at h2
        cases ok <;> cases h2
    | _ => simp [stepTx] at hrp
  · rintro id ok hv a rep req r c ok' more rfl hact hr hlog
    rw [run_snoc] at hlog
    rcases stepTx_cases env (run env s0 steps) id ok hv a rep with ⟨-, h1⟩ | ⟨req', r', d, more', k1, k2, k3, k4, k5, k6⟩
    · rw [h1] at hlog; simp at hlog
    · rw [hact] at k1; cases k1
      rw [hr] at k2; cases k2
      have h1 := key id ok hv a rep req r d more' rfl hact hr k3 (by rw [run_snoc]; exact k5)
      rw [k5] at hlog
      have h2 := List.append_cancel_left hlog
      simp only [List.cons.injEq, Obs.result.injEq] at h2
      rw [← h2.1.2.2]
      exact h1

/-! ### Instances -/

/-- Seven authors; author 1 reports failure of transaction 5, author 3 success. -/
def exSeven : State Nat :=
  initial 0 { validators := [⟨1, 1⟩, ⟨2, 2⟩, ⟨3, 3⟩, ⟨4, 4⟩, ⟨5, 5⟩, ⟨6, 6⟩, ⟨7, 7⟩], primaryIndex := 0 } 5
def exLiar : List (Step Nat) :=
  [.publish [65] [] [1] true, .ethTxHash 5 1234 2, .corroborate 5 false true 1 0, .corroborate 5 true true 3 0]

/-- Author 4 confirms the success: author 1 is reported, in the name of the sender 2. -/
example : (stepTx exEnv (run exEnv exSeven exLiar) (.corroborate 5 true true 4 0)).2 = [⟨.challengedSuccess, 2, [1]⟩] ∧
    (run exEnv exSeven (exLiar ++ [.corroborate 5 true true 4 0])).log = (run exEnv exSeven exLiar).log ++ [.result 5 [1] true] ∧
    (run exEnv exSeven exLiar).active.isSome = true := by decide +kernel

/-- Author 4 confirms the failure instead: author 3 is reported. -/
example : (stepTx exEnv (run exEnv exSeven exLiar) (.corroborate 5 false true 4 0)).2 = [⟨.challengedFailure, 2, [3]⟩] := by decide +kernel

/-- The hypotheses of `C108_truthful_never_reported` hold for the first: success is the truth, and author 1 the only one who lies. -/
example : Truthful exEnv (fun _ => true) [1] exSeven (exLiar ++ [.corroborate 5 true true 4 0]) ∧
    ([1] : List Nat).length < Avn.requiredFor ((run exEnv exSeven exLiar).avn.validators.length - 1) := by
  refine ⟨?_, by decide +kernel⟩
  intro pre post id ok hv x rep he hx
  have hm : (.corroborate id ok hv x rep : Step Nat) ∈ exLiar ++ [.corroborate 5 true true 4 0] := by rw [he]; simp
  simp [exLiar] at hm
  rcases hm with h | h | h
  · exact absurd (by simp [h]) hx
  · exact h.2.1
  · exact h.2.1

end Tx

end Verif.BridgeOffence
