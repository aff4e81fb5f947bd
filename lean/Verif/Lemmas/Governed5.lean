import Verif.Lemmas.EthBridgeTx

/-! # The bridge's transactions: what no user, validator or hook changes -/

namespace Verif.BridgeTx

variable {W : Type} (env : Env W)

private theorem setUp_instance {s s' : State W} {r : Request} (h : setUp env s r = .ok s') : s'.instanceId = s.instanceId := by
  obtain ⟨a, avn, _, rfl⟩ := setUp_ok env h
  rfl

private theorem processQueue_instance (q : List Request) : ∀ s : State W, (processQueue env s q).instanceId = s.instanceId := by
  induction q with
  | nil => intro s; rfl
  | cons r rest ih =>
    intro s
    unfold processQueue
    cases hs : setUp env { s with queue := rest } r with
    | ok s' => have := setUp_instance env hs; exact this
    | error e =>
      dsimp only
      rw [ih]
      cases r <;> rfl

private theorem processNext_instance (s : State W) : (processNext env s).instanceId = s.instanceId := processQueue_instance env _ _

private theorem enqueue_instance {s s' : State W} {r : Request} (h : enqueueOrSetUp env s r = .ok s') : s'.instanceId = s.instanceId := by
  unfold enqueueOrSetUp at h
  by_cases ha : s.active.isSome = true
  · rw [if_pos ha] at h
    unfold queueRequest at h
    by_cases hl : s.queue.length < env.maxQueued
    · rw [if_pos hl] at h; injection h with h; subst h; rfl
    · rw [if_neg hl] at h; cases h
  · rw [if_neg ha] at h; exact setUp_instance env h

private theorem publish_instance (s : State W) (name : List UInt8) (params : List Param) (caller : List UInt8) :
    (publish env s name params caller).1.instanceId = s.instanceId := by
  unfold publish
  dsimp only
  repeat' split
  all_goals first
    | rfl
    | (rename_i h; have := enqueue_instance env h; exact this)

private theorem lower_instance (s : State W) (id params : Nat) (caller : List UInt8) :
    (generateLowerProof env s id params caller).1.instanceId = s.instanceId := by
  unfold generateLowerProof
  dsimp only
  repeat' split
  all_goals first
    | rfl
    | (rename_i h; have := enqueue_instance env h; exact this)

private theorem confirm_instance {s s' : State W} {id sig a : Nat} (h : addConfirmation env s id sig a = .ok s') :
    s'.instanceId = s.instanceId := by
  unfold addConfirmation at h
  dsimp only at h
  repeat' split at h
  all_goals first
    | (cases h; done)
    | (injection h with h; subst h; first | rfl | (unfold completeLower; rw [processNext_instance]))

private theorem hash_instance {s s' : State W} {id hash a : Nat} (h : addEthTxHash s id hash a = .ok s') :
    s'.instanceId = s.instanceId := by
  unfold addEthTxHash at h
  repeat' split at h
  all_goals first
    | (cases h; done)
    | (injection h with h; subst h; rfl)

private theorem complete_instance {s s' : State W} {r : SendReq} {d : TxData} {ok : Bool} (h : completeTransaction env s r d ok = .ok s') :
    s'.instanceId = s.instanceId := by
  unfold completeTransaction at h
  dsimp only at h
  by_cases hn : (env.onResult s.world r.txId r.callerId ok).2 = false
  · rw [if_pos hn] at h; cases h
  · rw [if_neg hn] at h
    injection h with h
    subst h
    rw [processNext_instance]

private theorem finalize_instance {s s' : State W} {r : SendReq} {d : TxData} {ok : Bool} (h : finalizeState env s r d ok = .ok s') :
    s'.instanceId = s.instanceId := by
  unfold finalizeState at h
  split at h
  · obtain ⟨a, avn, _, _, rfl⟩ := setUpTx_ok env h
    rfl
  · exact complete_instance env h

private theorem corroborate_instance {s s' : State W} {id a rep : Nat} {ok hv : Bool} (h : addCorroboration env s id ok hv a rep = .ok s') :
    s'.instanceId = s.instanceId := by
  unfold addCorroboration at h
  dsimp only at h
  repeat' split at h
  all_goals first
    | (cases h; done)
    | (injection h with h; subst h; rfl)
    | exact finalize_instance env h

/-- Only `setInstance` changes the instance. -/
theorem step_instance (s : State W) (op : Step W) (h : ∀ v i, op ≠ .setInstance v i) : (step env s op).instanceId = s.instanceId := by
  have hc : ∀ r : Except Err (State W), (∀ s', r = .ok s' → s'.instanceId = s.instanceId) → (commit s r).instanceId = s.instanceId := by
    intro r hr
    cases r with
    | ok s' => exact hr s' rfl
    | error e => rfl
  cases op with
  | publish name params caller rb =>
    unfold step
    dsimp only
    cases (publish env s name params caller).2 with
    | ok x => exact publish_instance env s name params caller
    | error e => cases rb with
      | true => rfl
      | false => exact publish_instance env s name params caller
  | lowerProof id params caller => exact lower_instance env s id params caller
  | confirm id sig a =>
    unfold step
    dsimp only
    by_cases ha : Avn.isValidator s.avn.validators a = true
    · rw [if_pos ha]; exact hc _ (fun s' h => confirm_instance env h)
    · rw [if_neg ha]
  | ethTxHash id hash a =>
    unfold step
    dsimp only
    by_cases ha : Avn.isValidator s.avn.validators a = true
    · rw [if_pos ha]; exact hc _ (fun s' h => hash_instance h)
    · rw [if_neg ha]
  | corroborate id ok hv a rep =>
    unfold step
    dsimp only
    by_cases ha : Avn.isValidator s.avn.validators a = true
    · rw [if_pos ha]; exact hc _ (fun s' h => corroborate_instance env h)
    · rw [if_neg ha]
  | removeActive =>
    refine hc _ ?_
    intro s' h
    unfold removeActive at h
    split at h
    · cases h
    · injection h with h
      subst h
      rw [processNext_instance]
      rename_i req _
      cases req.request <;> rfl
  | setTxId id => rfl
  | setInstance v i => exact absurd rfl (h v i)
  | external w avn now block lifetime => rfl

/-- The step decides the request: a validator's report on a transaction completes the quorum of its outcome among the validators
other than the sender, or a validator's signature completes the quorum of a lower's proof. -/
def Decides (s : State W) (op : Step W) (r : Request) : Prop :=
  ∃ req, s.active = some req ∧ req.request = r ∧
    ((∃ id ok hv a rep q d, op = .corroborate id ok hv a rep ∧ r = .send q ∧ q.txId = id ∧ req.txData = some d ∧
        Avn.isValidator s.avn.validators a = true ∧ a ≠ d.sender ∧ a ∉ d.success ∧ a ∉ d.failure ∧
        enoughCorroborations s ((if ok then d.success else d.failure).length + 1) = true) ∨
     (∃ id sig a q, op = .confirm id sig a ∧ r = .lower q ∧ q.lowerId = id ∧ Avn.isValidator s.avn.validators a = true ∧
        Avn.requiredForSupermajority s.avn.validators.length ≤ req.confirmations.length + 1))

/-- The active request stays in its place, or the step decides it, or it is root's removal. -/
theorem step_active (s : State W) (op : Step W) (hop : op ≠ .removeActive) (req : Active) (ha : s.active = some req) :
    (∃ req', (step env s op).active = some req' ∧ req'.request = req.request) ∨ Decides s op req.request := by
  have hv := step_view env s op
  generalize step env s op = s' at hv
  cases hv with
  | quiet op s' ha' hq hl hn => exact Or.inl ⟨req, ha'.trans ha, rfl⟩
  | queued op r s' ha' hlen ha'' hq hl hn => exact Or.inl ⟨req, ha''.trans ha, rfl⟩
  | activated op r a s' ha' ha'' hf hq hl hn => rw [ha] at ha'; cases ha'
  | confirmed id sig author req' ha' hid hauth hver hnew =>
    rw [ha] at ha'; injection ha' with ha'; subst ha'
    exact Or.inl ⟨_, rfl, rfl⟩
  | lowerDone id sig author req' r s' ha' hr hid hauth hver hnew henough hfin =>
    rw [ha] at ha'; injection ha' with ha'; subst ha'
    refine Or.inr ⟨req, ha, rfl, Or.inr ⟨id, sig, author, r, rfl, hr, hid, hauth, ?_⟩⟩
    rw [List.length_append] at henough
    exact henough
  | hashed id h author req' d ha' hid hd h0 hs =>
    rw [ha] at ha'; injection ha' with ha'; subst ha'
    exact Or.inl ⟨_, rfl, rfl⟩
  | corroborated id ok hv author rep req' d ha' hid hd hrep hauth hns hnew =>
    rw [ha] at ha'; injection ha' with ha'; subst ha'
    exact Or.inl ⟨_, rfl, rfl⟩
  | decided id ok hv author rep req' d r s' ha' hr hid hd hrep hauth hns hnew henough hfin =>
    rw [ha] at ha'; injection ha' with ha'; subst ha'
    refine Or.inr ⟨req, ha, rfl, Or.inl ⟨id, ok, hv, author, rep, r, d, rfl, hr, hid, hd, hauth, hns, hnew.1, hnew.2, ?_⟩⟩
    rw [addCorr_success, addCorr_failure] at henough
    cases ok with
    | true => simpa using henough
    | false => simpa using henough
  | removed req' s' ha' hfin => exact absurd rfl hop
  | reset op req' r a s' ha' hr ha'' hf hop hq hl hn =>
    rw [ha] at ha'; injection ha' with ha'; subst ha'
    exact Or.inl ⟨a, ha'', hf.1.trans hr.symm⟩

/-- In a history without removals by root, an active request stays until a step decides it. -/
theorem run_active (xs : List (Step W)) : ∀ (s : State W) (req : Active), s.active = some req → (∀ x ∈ xs, x ≠ .removeActive) →
    (∃ req', (run env s xs).active = some req' ∧ req'.request = req.request) ∨
    ∃ ys x zs, xs = ys ++ x :: zs ∧ Decides (run env s ys) x req.request := by
  induction xs with
  | nil => intro s req ha _; exact Or.inl ⟨req, ha, rfl⟩
  | cons x xs ih =>
    intro s req ha hx
    rcases step_active env s x (hx x List.mem_cons_self) req ha with ⟨req', h1, h2⟩ | h
    · rcases ih (step env s x) req' h1 (fun y hy => hx y (List.mem_cons_of_mem _ hy)) with ⟨r2, g1, g2⟩ | ⟨ys, y, zs, g1, g2⟩
      · exact Or.inl ⟨r2, g1, g2.trans h2⟩
      · refine Or.inr ⟨x :: ys, y, zs, by rw [g1]; rfl, ?_⟩
        rw [← h2]; exact g2
    · exact Or.inr ⟨[], x, xs, rfl, h⟩

end Verif.BridgeTx
