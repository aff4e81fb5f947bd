import Verif.Model.Pool
import Verif.Props.EthBridgeTx

/-!
# C116, C117: replays of authors' reports on requests to Ethereum
-/

namespace Verif.BridgeTx

open Verif Verif.Pool

variable {W : Type} {env : Env W}

/-- The transaction id of a send request. -/
def Request.sendId : Request → Option Nat
  | .send r => some r.txId
  | .lower _ => none

/-- The active request and the waiting ones. -/
def waiting (s : State W) : List Request := s.active.toList.map Active.request ++ s.queue

/-- Transaction ids in use are distinct and were handed out. -/
def Ids (s : State W) : Prop := ((waiting s).filterMap Request.sendId).Nodup ∧ ∀ i ∈ (waiting s).filterMap Request.sendId, i < s.nextTxId

/-- No waiting request has this transaction id, which was handed out. -/
def NotQueued (s : State W) (id : Nat) : Prop := id < s.nextTxId ∧ ∀ r ∈ s.queue, r.sendId ≠ some id

/-- What is left of an attempt: no request with this id is set up later, and if the active one has it, then in this attempt with `Q`, or in a later one. -/
def Past (s : State W) (id rep : Nat) (Q : TxData → Prop) : Prop :=
  NotQueued s id ∧ ∀ req d r, s.active = some req → req.request = .send r → r.txId = id → req.txData = some d →
    rep < d.replay ∨ (rep = d.replay ∧ Q d)

/-- Steps other than an administrator's reset of the counter or the instance. -/
def plain : Step W → Bool
  | .setTxId _ => false
  | .setInstance _ _ => false
  | _ => true

theorem finished_waiting {s s' : State W} {o : Obs} (h : Finished env s o s') :
    s'.nextTxId = s.nextTxId ∧ ∃ dropped, dropped ++ waiting s' = s.queue := by
  obtain ⟨dropped, -, h2, -, h4, -⟩ := h
  exact ⟨h4, dropped, h2⟩

theorem ids_step {s : State W} (hi : Ids s) (op : Step W) (hop : ∀ id, op ≠ .setTxId id) (hs : s.nextTxId + 1 < 2 ^ 32) :
    Ids (step env s op) ∧ s.nextTxId ≤ (step env s op).nextTxId ∧ (step env s op).nextTxId ≤ s.nextTxId + 1 := by
  have hw : wrapInc32 s.nextTxId = s.nextTxId + 1 := by unfold wrapInc32 pow32; omega
  have hv := step_view env s op
  generalize step env s op = s' at hv
  have same : ∀ s' : State W, waiting s' = waiting s → s.nextTxId ≤ s'.nextTxId → Ids s' := by
    intro s' e hn
    unfold Ids; rw [e]
    exact ⟨hi.1, fun i h => Nat.lt_of_lt_of_le (hi.2 i h) hn⟩
  have hfin : ∀ o, Finished env s o s' → Ids s' ∧ s.nextTxId ≤ s'.nextTxId ∧ s'.nextTxId ≤ s.nextTxId + 1 := by
    intro o hf
    obtain ⟨h1, dropped, h2⟩ := finished_waiting hf
    have hsub : (waiting s').Sublist (waiting s) := by
      have : (waiting s').Sublist s.queue := by rw [← h2]; exact List.sublist_append_right _ _
      exact this.trans (List.sublist_append_right _ _)
    refine ⟨⟨hi.1.sublist (hsub.filterMap _), fun i h => ?_⟩, by omega, by omega⟩
    rw [h1]; exact hi.2 i ((hsub.filterMap _).subset h)
  have new : ∀ (q : SendReq) (l : List Request), q.txId = s.nextTxId → l.Perm (waiting s ++ [.send q]) →
      (l.filterMap Request.sendId).Nodup ∧ ∀ i ∈ l.filterMap Request.sendId, i < s.nextTxId + 1 := by
    intro q l h1 hp
    have hp' := hp.filterMap Request.sendId
    rw [List.filterMap_append] at hp'
    have e : List.filterMap Request.sendId [.send q] = [s.nextTxId] := by simp [Request.sendId, h1]
    rw [e] at hp'
    refine ⟨hp'.nodup_iff.2 (List.nodup_append.2 ⟨hi.1, by simp, ?_⟩), fun i h => ?_⟩
    · intro a ha b hb
      have := hi.2 a ha
      have : b = s.nextTxId := by simpa using hb
      omega
    · rcases List.mem_append.1 (hp'.mem_iff.1 h) with h | h
      · have := hi.2 i h; omega
      · have : i = s.nextTxId := by simpa using h
        omega
  have newLower : ∀ (q : LowerReq) (l : List Request), l.Perm (waiting s ++ [.lower q]) →
      (l.filterMap Request.sendId).Nodup ∧ ∀ i ∈ l.filterMap Request.sendId, i < s.nextTxId := by
    intro q l hp
    have hp' := hp.filterMap Request.sendId
    rw [List.filterMap_append] at hp'
    have e : List.filterMap Request.sendId [.lower q] = [] := by simp [Request.sendId]
    rw [e, List.append_nil] at hp'
    exact ⟨hp'.nodup_iff.2 hi.1, fun i h => hi.2 i (hp'.mem_iff.1 h)⟩
  cases hv with
  | quiet op s' ha hq hl hn =>
    have hn' : s.nextTxId ≤ s'.nextTxId ∧ s'.nextTxId ≤ s.nextTxId + 1 := by
      rcases hn with h | h | ⟨id, h⟩
      · omega
      · omega
      · exact absurd h (hop id)
    exact ⟨same s' (by unfold waiting; rw [ha, hq]) hn'.1, hn'⟩
  | queued op r s' ha hlen ha' hq hl hn =>
    have e : waiting s' = waiting s ++ [r] := by unfold waiting; rw [ha', hq]; simp
    rcases hn with ⟨q, rfl, h1, h2⟩ | ⟨q, rfl, h2⟩
    · rw [h2, hw]
      refine ⟨?_, by omega, by omega⟩
      unfold Ids; rw [h2, hw]; exact new q _ h1 (by rw [e])
    · rw [h2]
      refine ⟨?_, by omega, by omega⟩
      unfold Ids; rw [h2]; exact newLower q _ (by rw [e])
  | activated op r a s' ha ha' hf hq hl hn =>
    have e : (waiting s').Perm (waiting s ++ [r]) := by
      unfold waiting; rw [ha', hq, ha]
      simp only [Option.toList_some, List.map_cons, List.map_nil, hf.1, Option.toList_none, List.nil_append, List.singleton_append]
      exact (List.perm_append_singleton _ _).symm
    rcases hn with ⟨q, rfl, h1, h2⟩ | ⟨q, rfl, h2⟩
    · rw [h2, hw]
      refine ⟨?_, by omega, by omega⟩
      unfold Ids; rw [h2, hw]; exact new q _ h1 e
    · rw [h2]
      refine ⟨?_, by omega, by omega⟩
      unfold Ids; rw [h2]; exact newLower q _ e
  | confirmed id sig author req ha =>
    exact ⟨same _ (by unfold waiting; rw [ha]; rfl) (Nat.le_refl _), Nat.le_refl _, Nat.le_succ _⟩
  | lowerDone id sig author req r s' ha hr hid hauth hver hnew hen hf => exact hfin _ hf
  | hashed id h author req d ha => exact ⟨same _ (by unfold waiting; rw [ha]; rfl) (Nat.le_refl _), Nat.le_refl _, Nat.le_succ _⟩
  | corroborated id ok hv author rep req d ha =>
    exact ⟨same _ (by unfold waiting; rw [ha]; rfl) (Nat.le_refl _), Nat.le_refl _, Nat.le_succ _⟩
  | decided id ok hv author rep req d r s' ha hr hid hd hrep hauth hns hnew hen hf => exact hfin _ hf
  | removed req s' ha hf => exact hfin _ hf
  | reset op req r a s' ha hr ha' hf hop hq hl hn =>
    exact ⟨same _ (by unfold waiting; rw [ha, ha', hq]; simp [hf.1, hr]) (by omega), by omega, by omega⟩

theorem ids_run (w : W) (avn : Avn.State) (n : Nat) (steps : List (Step W)) (hreset : ∀ op ∈ steps, ∀ id, op ≠ .setTxId id)
    (hwrap : n + steps.length < 2 ^ 32) :
    Ids (run env (initial w avn n) steps) ∧ WF (run env (initial w avn n) steps) ∧ (run env (initial w avn n) steps).nextTxId ≤ n + steps.length := by
  refine ⟨?_, run_wf env _ (by intro req h; simp [initial] at h) steps, ?_⟩ <;>
  · have key : Ids (run env (initial w avn n) steps) ∧ (run env (initial w avn n) steps).nextTxId ≤ n + steps.length := by
      induction steps using List.reverseRecOn with
      | nil => exact ⟨⟨by simp [run, initial, waiting], by simp [run, initial, waiting]⟩, by simp [run, initial]⟩
      | append_singleton steps op ih =>
        simp only [List.length_append, List.length_singleton] at hwrap ⊢
        obtain ⟨i1, i2⟩ := ih (fun o ho => hreset o (by simp [ho])) (by omega)
        rw [run_snoc]
        obtain ⟨j1, j2, j3⟩ := ids_step (env := env) i1 op (hreset op (by simp)) (by omega)
        exact ⟨j1, by omega⟩
    first | exact key.1 | exact key.2

theorem past_step {s : State W} {id rep : Nat} {Q : TxData → Prop} (hrep : rep < 65535) (hQh : ∀ d h, Q d → d.ethTxHash = 0 → Q { d with ethTxHash := h })
    (hQc : ∀ d ok hv a, Q d → Q (addCorr d ok hv a)) (hp : Past s id rep Q) (op : Step W) (hop : plain op = true) (hs : s.nextTxId + 1 < 2 ^ 32) :
    Past (step env s op) id rep Q := by
  have hw : wrapInc32 s.nextTxId = s.nextTxId + 1 := by unfold wrapInc32 pow32; omega
  have hv := step_view env s op
  generalize step env s op = s' at hv
  obtain ⟨⟨p1, p2⟩, p3⟩ := hp
  have hfin : ∀ o, Finished env s o s' → Past s' id rep Q := by
    intro o hf
    obtain ⟨h1, dropped, h2⟩ := finished_waiting hf
    have hmem : ∀ r ∈ waiting s', r ∈ s.queue := fun r hr => by rw [← h2]; exact List.mem_append_right _ hr
    refine ⟨⟨by omega, fun r hr => p2 r (hmem r (List.mem_append_right _ hr))⟩, ?_⟩
    intro req d r ha hr hid hd
    exfalso
    refine p2 (.send r) (hmem _ (List.mem_append_left _ ?_)) (by rw [← hid]; rfl)
    rw [ha]; simp [hr]
  cases hv with
  | quiet op s' ha hq hl hn =>
    refine ⟨⟨?_, by rw [hq]; exact p2⟩, by rw [ha]; exact p3⟩
    rcases hn with h | h | ⟨i, h⟩
    · omega
    · omega
    · subst h; simp [plain] at hop
  | queued op r s' ha hlen ha' hq hl hn =>
    refine ⟨⟨by rcases hn with ⟨q, rfl, h1, h2⟩ | ⟨q, rfl, h2⟩ <;> omega, ?_⟩, by rw [ha']; exact p3⟩
    intro r' hr'
    rw [hq] at hr'
    rcases List.mem_append.1 hr' with hr' | hr'
    · exact p2 r' hr'
    · rw [List.mem_singleton.1 hr']
      rcases hn with ⟨q, rfl, h1, h2⟩ | ⟨q, rfl, h2⟩
      · simp only [Request.sendId, ne_eq, Option.some.injEq]; omega
      · simp [Request.sendId]
  | activated op r a s' ha ha' hf hq hl hn =>
    refine ⟨⟨by rcases hn with ⟨q, rfl, h1, h2⟩ | ⟨q, rfl, h2⟩ <;> omega, by rw [hq]; exact p2⟩, ?_⟩
    intro req d r' h1 h2 h3 h4
    exfalso
    rw [ha'] at h1; cases h1
    rw [hf.1] at h2
    rcases hn with ⟨q, rfl, g1, g2⟩ | ⟨q, rfl, g2⟩
    · cases h2; omega
    · cases h2
  | confirmed i sig author req ha =>
    refine ⟨⟨p1, p2⟩, ?_⟩
    intro req' d r h1 h2 h3 h4
    cases h1
    exact p3 req d r ha h2 h3 h4
  | lowerDone i sig author req r s' ha hr hid hauth hver hnew hen hf => exact hfin _ hf
  | hashed i h author req d ha hid hd h0 hs' =>
    refine ⟨⟨p1, p2⟩, ?_⟩
    intro req' d' r h1 h2 h3 h4
    cases h1
    cases h4
    rcases p3 req d r ha h2 h3 hd with g | ⟨g1, g2⟩
    · exact .inl g
    · exact .inr ⟨g1, hQh d h g2 h0⟩
  | corroborated i ok hv author rep' req d ha hid hd =>
    refine ⟨⟨p1, p2⟩, ?_⟩
    intro req' d' r h1 h2 h3 h4
    cases h1
    cases h4
    have hr : (addCorr d ok hv author).replay = d.replay := by unfold addCorr; cases ok <;> cases hv <;> rfl
    rw [hr]
    rcases p3 req d r ha h2 h3 hd with g | ⟨g1, g2⟩
    · exact .inl g
    · exact .inr ⟨g1, hQc d ok hv author g2⟩
  | decided i ok hv author rep' req d r s' ha hr hid hd hrep hauth hns hnew hen hf => exact hfin _ hf
  | removed req s' ha hf => exact hfin _ hf
  | reset op req r a s' ha hr ha' hf hop' hq hl hn =>
    refine ⟨⟨by omega, by rw [hq]; exact p2⟩, ?_⟩
    intro req' d' r' h1 h2 h3 h4
    rw [ha'] at h1; cases h1
    rw [hf.1] at h2; cases h2
    rcases hop' with ⟨v, i, rfl⟩ | ⟨_, _, _, _, _, rfl, d, d'', g1, g2, g3⟩
    · simp [plain] at hop
    · rw [h4] at g2; cases g2
      left
      rcases p3 req d r ha hr h3 g1 with g | ⟨g, -⟩ <;> omega

theorem past_run {s : State W} {id rep : Nat} {Q : TxData → Prop} (hrep : rep < 65535) (hQh : ∀ d h, Q d → d.ethTxHash = 0 → Q { d with ethTxHash := h })
    (hQc : ∀ d ok hv a, Q d → Q (addCorr d ok hv a)) (hi : Ids s) (hp : Past s id rep Q) (later : List (Step W)) (hop : ∀ op ∈ later, plain op = true)
    (hs : s.nextTxId + later.length < 2 ^ 32) : Past (run env s later) id rep Q := by
  have key : Ids (run env s later) ∧ Past (run env s later) id rep Q ∧ (run env s later).nextTxId ≤ s.nextTxId + later.length := by
    induction later using List.reverseRecOn with
    | nil => exact ⟨hi, hp, by simp [run]⟩
    | append_singleton l op ih =>
      simp only [List.length_append, List.length_singleton] at hs ⊢
      obtain ⟨i1, i2, i3⟩ := ih (fun o ho => hop o (by simp [ho])) (by omega)
      rw [run_snoc]
      have hpl := hop op (by simp)
      have hne : ∀ i, op ≠ .setTxId i := by intro i e; subst e; simp [plain] at hpl
      obtain ⟨j1, j2, j3⟩ := ids_step (env := env) i1 op hne (by omega)
      exact ⟨j1, past_step hrep hQh hQc i2 op hpl (by omega), by omega⟩
  exact key.2.1

theorem ids_notQueued {s : State W} (hi : Ids s) {req : Active} {r : SendReq} (ha : s.active = some req) (hr : req.request = .send r) :
    NotQueued s r.txId := by
  have e : waiting s = .send r :: s.queue := by unfold waiting; rw [ha]; simp [hr]
  obtain ⟨h1, h2⟩ := hi
  rw [e] at h1 h2
  have e2 : List.filterMap Request.sendId (.send r :: s.queue) = r.txId :: s.queue.filterMap Request.sendId := by simp [Request.sendId]
  rw [e2] at h1 h2
  refine ⟨h2 _ List.mem_cons_self, fun q hq e => ?_⟩
  exact (List.nodup_cons.1 h1).1 (List.mem_filterMap.2 ⟨q, hq, e⟩)

/-! ### C116 is false for the bridge -/

/-- **C116 is false for confirmations, transaction hashes and corroborations.** Whatever was executed or settled since, the pool admits a report with a good
signature of a current author: there is no check of the state at all. -/
theorem C116_full_claim_false_bridge (s : State W) (steps : List (Step W)) (author : Nat)
    (h : Avn.isValidator (run env s steps).avn.validators author = true) : admitBridge (run env s steps) author true = true := by
  simp [admitBridge, h]

/-! ### C117 -/

/-- **C117, corroborations.** A corroboration that was taken into account for an attempt changes nothing when the author's report on that attempt (this one or
any other) is executed at any later time, also when later attempts of the same transaction are under way. Histories without an administrator's reset of the
counter (or its wrapping) and, after the report, of the instance; attempts are counted up to 65535. -/
theorem C117_corroboration (w : W) (avn : Avn.State) (n : Nat) (pre later : List (Step W)) (hreset : ∀ op ∈ pre, ∀ id, op ≠ .setTxId id)
    (hplain : ∀ op ∈ later, plain op = true) (hwrap : n + pre.length + later.length + 1 < 2 ^ 32)
    (id : Nat) (ok hv : Bool) (author rep : Nat) (hrep : rep < 65535) (req : Active) (d : TxData)
    (ha : (run env (initial w avn n) pre).active = some req) (hid : req.request.idMatches id = true) (hd : req.txData = some d) (hd' : d.replay = rep)
    (s1 : State W) (hok : addCorroboration env (run env (initial w avn n) pre) id ok hv author rep = .ok s1)
    (hauth : Avn.isValidator (run env (initial w avn n) pre).avn.validators author = true) (ok' hv' : Bool) :
    step env (run env s1 later) (.corroborate id ok' hv' author rep) = run env s1 later := by
  obtain ⟨hi, hwf, hn⟩ := ids_run (env := env) w avn n pre hreset (by omega)
  generalize run env (initial w avn n) pre = s at *
  obtain ⟨r, hr⟩ : ∃ r, req.request = .send r := (hwf req ha).1 (by rw [hd]; rfl)
  have hid' : r.txId = id := by rw [hr] at hid; simpa [Request.idMatches] using hid
  have hstep : step env s (.corroborate id ok hv author rep) = s1 := by simp only [step]; rw [if_pos hauth, hok]; rfl
  have hQh : ∀ (d : TxData) (h : Nat), (author ∈ d.success ∨ author ∈ d.failure) → d.ethTxHash = 0 →
      (author ∈ ({ d with ethTxHash := h } : TxData).success ∨ author ∈ ({ d with ethTxHash := h } : TxData).failure) := fun d h hq _ => hq
  have hQc : ∀ (d : TxData) (ok hv : Bool) (a : Nat), (author ∈ d.success ∨ author ∈ d.failure) →
      (author ∈ (addCorr d ok hv a).success ∨ author ∈ (addCorr d ok hv a).failure) := by
    intro d ok hv a hq
    unfold addCorr
    cases ok <;> cases hv <;> simp <;> rcases hq with hq | hq <;> simp [hq]
  have start : Ids s1 ∧ Past s1 id rep (fun d => author ∈ d.success ∨ author ∈ d.failure) ∧ s1.nextTxId ≤ s.nextTxId + 1 := by
    obtain ⟨j1, j2, j3⟩ := ids_step (env := env) hi (.corroborate id ok hv author rep) (by intro i e; cases e) (by omega)
    rw [hstep] at j1 j2 j3
    refine ⟨j1, ?_, j3⟩
    have hnq := ids_notQueued hi ha hr
    rw [hid'] at hnq
    by_cases hin : author ∈ d.success ∨ author ∈ d.failure
    · have hp : Past s id rep (fun d => author ∈ d.success ∨ author ∈ d.failure) := by
        refine ⟨hnq, ?_⟩
        intro req' d' r' h1 h2 h3 h4
        rw [ha] at h1; cases h1; rw [hd] at h4; cases h4
        exact .inr ⟨hd'.symm, hin⟩
      rw [← hstep]
      exact past_step hrep hQh hQc hp _ rfl (by omega)
    · have hv' := step_view env s (.corroborate id ok hv author rep)
      rw [hstep] at hv'
      have hfin : ∀ o, Finished env s o s1 → Past s1 id rep (fun d => author ∈ d.success ∨ author ∈ d.failure) := by
        intro o hf
        obtain ⟨h1, dropped, h2⟩ := finished_waiting hf
        have hmem : ∀ r ∈ waiting s1, r ∈ s.queue := fun r hr => by rw [← h2]; exact List.mem_append_right _ hr
        refine ⟨⟨by have := hnq.1; omega, fun r hr => hnq.2 r (hmem r (List.mem_append_right _ hr))⟩, ?_⟩
        intro req d r ha hr hid hd
        exfalso
        refine hnq.2 (.send r) (hmem _ (List.mem_append_left _ ?_)) (by rw [← hid]; rfl)
        rw [ha]; simp [hr]
      unfold addCorroboration at hok
      rw [ha] at hok
      dsimp only at hok
      rw [if_neg (by rw [hid]; simp), hd] at hok
      dsimp only at hok
      rw [if_neg (by rw [hd']; simp)] at hok
      by_cases c1 : author = d.sender
      · rw [if_pos c1] at hok; cases hok
      rw [if_neg c1, if_neg hin] at hok
      by_cases c2 : (if hv then d.validHash else d.invalidHash).length ≥ confirmationsLimit
      · rw [if_pos c2] at hok; cases hok
      rw [if_neg c2] at hok
      by_cases c3 : (if ok then d.success else d.failure).length ≥ confirmationsLimit
      · rw [if_pos c3] at hok; cases hok
      rw [if_neg c3] at hok
      by_cases c4 : enoughCorroborations s
          (if ok then (addCorr d ok hv author).success else (addCorr d ok hv author).failure).length = true
      · rw [if_pos c4, hr] at hok
        dsimp only at hok
        unfold finalizeState at hok
        by_cases c5 : (!ok && enoughCorroborations s (addCorr d ok hv author).invalidHash.length) = true
        · rw [if_pos c5] at hok
          obtain ⟨a, av, hf, ⟨d2, g1, g2⟩, rfl⟩ := setUpTx_ok env hok
          refine ⟨hnq, ?_⟩
          intro req' d' r' h1 h2 h3 h4
          cases h1
          rw [g1] at h4; cases h4
          have hrp : (addCorr d ok hv author).replay = d.replay := by unfold addCorr; cases ok <;> cases hv <;> rfl
          left; rw [g2, hrp, hd']; exact Nat.lt_min.mpr ⟨Nat.lt_succ_self _, hrep⟩
        · rw [if_neg c5] at hok
          unfold completeTransaction at hok
          dsimp only at hok
          by_cases c6 : (env.onResult s.world r.txId r.callerId ok).2 = false
          · rw [if_pos c6] at hok; cases hok
          rw [if_neg c6] at hok
          cases hok
          exact hfin (.result r.txId r.callerId ok) (processNext_finished env s _ _ rfl rfl rfl)
      · rw [if_neg c4] at hok
        cases hok
        refine ⟨hnq, ?_⟩
        intro req' d' r' h1 h2 h3 h4
        cases h1; cases h4
        right
        have hrp : (addCorr d ok hv author).replay = d.replay := by unfold addCorr; cases ok <;> cases hv <;> rfl
        refine ⟨by rw [hrp]; exact hd'.symm, ?_⟩
        unfold addCorr
        cases ok <;> cases hv <;> simp
  obtain ⟨k1, k2, k3⟩ := start
  have hp := past_run (env := env) hrep hQh hQc k1 k2 later hplain (by omega)
  have hwf1 : WF s1 := by
    have := run_wf env s hwf [.corroborate id ok hv author rep]
    simp only [run, List.foldl_cons, List.foldl_nil] at this
    rw [hstep] at this; exact this
  have hwft := run_wf env s1 hwf1 later
  generalize run env s1 later = t at hp hwft
  simp only [step]
  by_cases hg : Avn.isValidator t.avn.validators author = true
  · rw [if_pos hg]
    unfold addCorroboration
    cases hta : t.active with
    | none => rfl
    | some q =>
      dsimp only
      by_cases e1 : q.request.idMatches id = false
      · rw [if_pos e1]; rfl
      rw [if_neg e1]
      cases htd : q.txData with
      | none => rfl
      | some x =>
        dsimp only
        by_cases e2 : rep ≠ x.replay
        · rw [if_pos e2]; rfl
        rw [if_neg e2]
        by_cases e3 : author = x.sender
        · rw [if_pos e3]; rfl
        rw [if_neg e3]
        by_cases e4 : author ∈ x.success ∨ author ∈ x.failure
        · rw [if_pos e4]; rfl
        exfalso
        cases hq : q.request with
        | send r' =>
          have : r'.txId = id := by rw [hq] at e1; simpa [Request.idMatches] using e1
          rcases hp.2 q x r' hta hq this htd with g | ⟨-, g⟩
          · omega
          · exact e4 g
        | lower l =>
          obtain ⟨r', hr'⟩ := (hwft q hta).1 (by rw [htd]; rfl)
          rw [hq] at hr'; cases hr'
  · rw [if_neg hg]

/-- **C117, transaction hashes (partial: the same attempt).** Once a hash was taken for an attempt, no report of a hash for that transaction, by whomever and
whenever it is executed, changes anything, unless a later attempt of the same transaction is active. (For a later attempt see
`C117_full_claim_false_hash`.) -/
theorem C117_hash_partial (w : W) (avn : Avn.State) (n : Nat) (pre later : List (Step W)) (hreset : ∀ op ∈ pre, ∀ id, op ≠ .setTxId id)
    (hplain : ∀ op ∈ later, plain op = true) (hwrap : n + pre.length + later.length + 1 < 2 ^ 32)
    (id hash author : Nat) (hne : hash ≠ 0) (req : Active) (d : TxData) (hrep : d.replay < 65535)
    (ha : (run env (initial w avn n) pre).active = some req) (hid : req.request.idMatches id = true) (hd : req.txData = some d)
    (s1 : State W) (hok : addEthTxHash (run env (initial w avn n) pre) id hash author = .ok s1)
    (hauth : Avn.isValidator (run env (initial w avn n) pre).avn.validators author = true)
    (hsame : ∀ q x, (run env s1 later).active = some q → q.txData = some x → q.request.idMatches id = true → x.replay ≤ d.replay)
    (hash' author' : Nat) :
    step env (run env s1 later) (.ethTxHash id hash' author') = run env s1 later := by
  obtain ⟨hi, hwf, hn⟩ := ids_run (env := env) w avn n pre hreset (by omega)
  generalize run env (initial w avn n) pre = s at *
  obtain ⟨r, hr⟩ : ∃ r, req.request = .send r := (hwf req ha).1 (by rw [hd]; rfl)
  have hid' : r.txId = id := by rw [hr] at hid; simpa [Request.idMatches] using hid
  have hstep : step env s (.ethTxHash id hash author) = s1 := by simp only [step]; rw [if_pos hauth, hok]; rfl
  obtain ⟨j1, j2, j3⟩ := ids_step (env := env) hi (.ethTxHash id hash author) (by intro i e; cases e) (by omega)
  have hwf1 : WF s1 := by
    have := run_wf env s hwf [.ethTxHash id hash author]
    simp only [run, List.foldl_cons, List.foldl_nil] at this
    rw [hstep] at this; exact this
  rw [hstep] at j1 j2 j3
  have hnq := ids_notQueued hi ha hr
  rw [hid'] at hnq
  have hp1 : Past s1 id d.replay (fun x => x.ethTxHash ≠ 0) := by
    unfold addEthTxHash at hok
    rw [ha] at hok
    dsimp only at hok
    rw [if_neg (by rw [hid]; simp), hd] at hok
    dsimp only at hok
    by_cases c1 : d.ethTxHash ≠ 0
    · rw [if_pos c1] at hok; cases hok
    rw [if_neg c1] at hok
    by_cases c2 : d.sender ≠ author
    · rw [if_pos c2] at hok; cases hok
    rw [if_neg c2] at hok
    cases hok
    refine ⟨hnq, ?_⟩
    intro req' d' r' h1 h2 h3 h4
    cases h1; cases h4
    exact .inr ⟨rfl, hne⟩
  have hp := past_run (env := env) hrep (fun x h hq h0 => absurd h0 hq)
    (fun x ok hv a hq => by unfold addCorr; cases ok <;> cases hv <;> exact hq) j1 hp1 later hplain (by omega)
  have hwft := run_wf env s1 hwf1 later
  generalize run env s1 later = t at hp hwft hsame
  simp only [step]
  by_cases hg : Avn.isValidator t.avn.validators author' = true
  · rw [if_pos hg]
    unfold addEthTxHash
    cases hta : t.active with
    | none => rfl
    | some q =>
      dsimp only
      by_cases e1 : q.request.idMatches id = false
      · rw [if_pos e1]; rfl
      rw [if_neg e1]
      cases htd : q.txData with
      | none => rfl
      | some x =>
        dsimp only
        obtain ⟨r', hr'⟩ := (hwft q hta).1 (by rw [htd]; rfl)
        have hid2 : r'.txId = id := by rw [hr'] at e1; simpa [Request.idMatches] using e1
        have hle := hsame q x hta htd (by simpa using e1)
        rcases hp.2 q x r' hta hr' hid2 htd with g | ⟨-, g⟩
        · omega
        · rw [if_pos g]; rfl
  · rw [if_neg hg]

/-- A send request fails with an invalid hash in four attempts, each corroborated by one of the other authors (one is enough of four); author 2
reported the hash 1234 for the first attempt, and is the sender of the fifth. -/
def exAttempts : List (Step Nat) :=
  [.publish [65] [] [1] true, .ethTxHash 5 1234 2, .corroborate 5 false false 1 0, .corroborate 5 false false 1 1, .corroborate 5 false false 1 2,
   .corroborate 5 false false 2 3]

/-- **C117 is false for transaction hashes across attempts.** The report of author 2 on the first attempt was taken into account, and the attempt failed
because the hash was invalid; when it is 2's turn again, anyone can hand in the old report: the invalid hash is recorded for the new attempt, and the
sender's report of the true hash is refused. -/
theorem C117_full_claim_false_hash :
    let s0 := run exEnv ex0 (exAttempts.take 1)
    let s := run exEnv ex0 exAttempts
    let s' := step exEnv s (.ethTxHash 5 1234 2)
    (addEthTxHash s0 5 1234 2).isOk = true ∧
      s.active.map (fun a => (a.request.idMatches 5, a.txData.map fun d => (d.sender, d.ethTxHash, d.replay))) = some (true, some (2, 0, 4)) ∧
      s'.active.map (fun a => a.txData.map TxData.ethTxHash) = some (some 1234) ∧
      (step exEnv s' (.ethTxHash 5 777 2)).active = s'.active := by decide +kernel

/-- **C117 is false for corroborations once the instance is set again.** Setting the bridge instance starts the active request over with attempt 0; the
report of author 1 that the old attempt 0 had failed then counts against the new one. -/
theorem C117_full_claim_false_corroboration_instance :
    let s0 := run exEnv ex0 [.publish [65] [] [1] true]
    let s1 := run exEnv ex0 [.publish [65] [] [1] true, .corroborate 5 false false 1 0]
    let s := step exEnv s1 (.setInstance true 9)
    let s' := step exEnv s (.corroborate 5 false false 1 0)
    (addCorroboration exEnv s0 5 false false 1 0).isOk = true ∧ s0.active ≠ s1.active ∧
      s.active.map (fun a => (a.request.idMatches 5, a.txData.map TxData.replay)) = some (true, some 0) ∧
      s'.active.map (fun a => a.txData.map TxData.replay) = some (some 1) := by decide +kernel

/-- **C117, confirmations (partial: the same message only).** A signature is for one message. A confirmation for a message changes the state at a later time
only if the active request has the same id and the same message, and does not hold the confirmation yet (the request was set up again). -/
theorem C117_confirmation_partial (hsig : ∀ m m' sig a, env.signer m sig = some a → env.signer m' sig = some a → m = m')
    (s t : State W) (id sig author : Nat) (req : Active) (ha : s.active = some req) (hchange : step env s (.confirm id sig author) ≠ s)
    (hchange' : step env t (.confirm id sig author) ≠ t) :
    ∃ q, t.active = some q ∧ q.request.idMatches id = true ∧ q.msgHash = req.msgHash ∧ sig ∉ q.confirmations := by
  have key : ∀ u : State W, step env u (.confirm id sig author) ≠ u →
      ∃ q, u.active = some q ∧ q.request.idMatches id = true ∧ env.signer q.msgHash sig = some author ∧ sig ∉ q.confirmations := by
    intro u hu
    simp only [step] at hu
    by_cases hg : Avn.isValidator u.avn.validators author = true
    · rw [if_pos hg] at hu
      unfold addConfirmation at hu
      cases hq : u.active with
      | none => rw [hq] at hu; exact absurd rfl hu
      | some q =>
        rw [hq] at hu
        dsimp only at hu
        by_cases c1 : q.request.idMatches id = false
        · rw [if_pos c1] at hu; exact absurd rfl hu
        rw [if_neg c1] at hu
        by_cases c2 : enoughConfirmations u q.request q.confirmations.length = true
        · rw [if_pos c2] at hu; exact absurd rfl hu
        rw [if_neg c2] at hu
        by_cases c3 : isSender q author = true
        · rw [if_pos c3] at hu; exact absurd rfl hu
        rw [if_neg c3] at hu
        by_cases c4 : verifySignature env u q.msgHash author sig = false
        · rw [if_pos c4] at hu; exact absurd rfl hu
        rw [if_neg c4] at hu
        by_cases c5 : sig ∈ q.confirmations
        · rw [if_pos c5] at hu; exact absurd rfl hu
        refine ⟨q, rfl, by simpa using c1, ?_, c5⟩
        unfold verifySignature at c4
        simp only [Bool.not_eq_false, Bool.and_eq_true, beq_iff_eq] at c4
        exact c4.2
    · rw [if_neg hg] at hu; exact absurd rfl hu
  obtain ⟨q, h1, -, h3, -⟩ := key s hchange
  rw [ha] at h1; cases h1
  obtain ⟨q, g1, g2, g3, g4⟩ := key t hchange'
  exact ⟨q, g1, g2, hsig _ _ _ _ g3 h3, g4⟩

/-! ### Non-vacuity -/

/-- Seven authors, so that two corroborations decide. -/
def ex7 : State Nat :=
  initial 0 { validators := [⟨1, 1⟩, ⟨2, 2⟩, ⟨3, 3⟩, ⟨4, 4⟩, ⟨5, 5⟩, ⟨6, 6⟩, ⟨7, 7⟩], primaryIndex := 0 } 5

/-- A corroboration is recorded, and replayed after it was recorded, in the next attempt, and after the request was settled. -/
example :
    let pre : List (Step Nat) := [.publish [65] [] [1] true, .ethTxHash 5 1234 2]
    let s := run exEnv ex7 pre
    let s1 := run exEnv ex7 (pre ++ [.corroborate 5 false false 1 0])
    let later : List (Step Nat) := [.corroborate 5 false false 3 0, .corroborate 5 true true 1 1, .corroborate 5 true true 4 1]
    (∀ op ∈ pre, ∀ id, op ≠ .setTxId id) ∧ (later.all plain = true) ∧
      (addCorroboration exEnv s 5 false false 1 0).isOk = true ∧
      (s.active.bind Active.txData).map TxData.replay = some 0 ∧
      (s1.active.bind Active.txData).map TxData.failure = some [1] ∧
      ((run exEnv s1 (later.take 1)).active.bind Active.txData).map TxData.replay = some 1 ∧
      (run exEnv s1 later).active = none := by
  refine ⟨?_, by decide +kernel⟩
  intro op hop id
  simp at hop
  rcases hop with rfl | rfl <;> simp

/-- The report of a hash is taken into account, and replayed while its attempt is under way. -/
example :
    let s := run exEnv ex7 [.publish [65] [] [1] true]
    let s1 := step exEnv s (.ethTxHash 5 1234 2)
    (addEthTxHash s 5 1234 2).isOk = true ∧ (s1.active.bind Active.txData).map (fun d => (d.ethTxHash, d.replay)) = some (1234, 0) := by decide +kernel

/-- A world in which a signature `10 * message + author` is by that author for that message. -/
def exSign : Env Nat := { exEnv with signer := fun m sig => if sig / 10 = m then some (sig % 10) else none }

/-- Signatures of `exSign` are for one message, and a confirmation has an effect, the second time it has none. -/
example : (∀ m m' sig a, exSign.signer m sig = some a → exSign.signer m' sig = some a → m = m') ∧
    (let s := run exSign ex7 [.publish [65] [] [1] true]
     (step exSign s (.confirm 5 73 3)).active.map Active.confirmations = some [73] ∧
       (step exSign (step exSign s (.confirm 5 73 3)) (.confirm 5 73 3)).active.map Active.confirmations = some [73]) := by
  refine ⟨?_, by decide +kernel⟩
  intro m m' sig a h h'
  simp only [exSign] at h h'
  by_cases c : sig / 10 = m
  · by_cases c' : sig / 10 = m'
    · exact c.symm.trans c'
    · rw [if_neg c'] at h'; cases h'
  · rw [if_neg c] at h; cases h

end Verif.BridgeTx
