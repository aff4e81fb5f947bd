import Verif.Model.EthBridgeTx
import Mathlib.Tactic.SplitIfs
import Mathlib.Data.List.Nodup
import Mathlib.Data.List.Induction

namespace Verif.BridgeTx

/-- What identifies a request towards its caller: kind (`true` = send), id and caller id. -/
abbrev Tag := Bool × Nat × List UInt8

/-- Tag of a request. -/
def tag : Request → Tag
  | .send r => (true, r.txId, r.callerId)
  | .lower r => (false, r.lowerId, r.callerId)

/-- Tags of the accepted requests, in order of acceptance. -/
def acceptedTags (log : List Obs) : List Tag := log.filterMap (fun | .accepted r => some (tag r) | _ => none)

/-- Tags of the notifications sent, in order. -/
def notifiedTags (log : List Obs) : List Tag :=
  log.filterMap (fun
    | .result id c _ => some (true, id, c)
    | .lowerResult id c _ => some (false, id, c)
    | _ => none)

@[simp] theorem acceptedTags_append (a b : List Obs) : acceptedTags (a ++ b) = acceptedTags a ++ acceptedTags b := by
  simp [acceptedTags]
@[simp] theorem notifiedTags_append (a b : List Obs) : notifiedTags (a ++ b) = notifiedTags a ++ notifiedTags b := by
  simp [notifiedTags]

variable {W : Type} (env : Env W)

/-- Requests not yet answered: the active one, then the queue. -/
def pending (s : State W) : List Tag := (s.active.toList.map Active.request ++ s.queue).map tag

/-- A just set up active request. -/
def Fresh (r : Request) (a : Active) : Prop :=
  a.request = r ∧ a.confirmations = [] ∧
    (∀ d, a.txData = some d → d.success = [] ∧ d.failure = [] ∧ d.ethTxHash = 0) ∧
    (a.txData.isSome = true ↔ ∃ q, r = .send q) ∧
    (∀ q, r = .lower q → ∃ i, env.lowerHash q.params i = some a.msgHash) ∧
    (∀ q d, r = .send q → a.txData = some d → ∃ i, env.fnHash q.name d.params i = some a.msgHash ∧
      extendParams q d.expiry = some d.params)

theorem setUpTx_ok {s s' : State W} {r : SendReq} {n : Nat} (h : setUpTx env s r n = .ok s') :
    ∃ a avn, Fresh env (.send r) a ∧ (∃ d, a.txData = some d ∧ d.replay = n) ∧ s' = { s with avn := avn, active := some a } := by
  unfold setUpTx at h
  simp only at h
  split at h
  · simp at h
  · split at h
    · simp at h
    · split at h
      · simp at h
      · simp only [Except.ok.injEq] at h
        refine ⟨_, _, ?_, ?_, h.symm⟩
        · rename_i _ _ h1 _ _ h2 _ _ _ _
          simp only [Fresh, true_and]
          refine ⟨?_, by simp, by simp, ?_⟩
          · rintro d ⟨⟩; simp
          · rintro q d ⟨⟩ ⟨⟩; exact ⟨_, by assumption, by assumption⟩
        · simp

theorem setUp_ok {s s' : State W} {r : Request} (h : setUp env s r = .ok s') :
    ∃ a avn, Fresh env r a ∧ s' = { s with avn := avn, active := some a } := by
  cases r with
  | send r =>
    obtain ⟨a, avn, hf, _, he⟩ := setUpTx_ok env h
    exact ⟨a, avn, hf, he⟩
  | lower r =>
    simp only [setUp, setUpLower] at h
    split at h
    · simp at h
    · simp only [Except.ok.injEq] at h
      refine ⟨_, s.avn, ?_, h.symm⟩
      rename_i h2
      simp only [Fresh, true_and]
      refine ⟨by simp, by simp, ?_, by simp⟩
      rintro q ⟨⟩; exact ⟨_, h2⟩

/-- A failure notification. -/
def failObs : Request → Obs
  | .send r => .result r.txId r.callerId false
  | .lower r => .lowerResult r.lowerId r.callerId none

theorem notifyFailed_eq (s : State W) (r : Request) :
    ∃ w, notifyFailed env s r = { s with world := w, log := s.log ++ [failObs r] } := by
  cases r with
  | send r => exact ⟨_, rfl⟩
  | lower r => exact ⟨_, rfl⟩

/-- What advancing the queue does: some leading requests fail to be set up and are reported, the next becomes active. -/
theorem processQueue_spec (q : List Request) : ∀ (s : State W), s.active = none →
    ∃ dropped, (processQueue env s q).log = s.log ++ dropped.map failObs ∧
      dropped ++ ((processQueue env s q).active.toList.map Active.request ++ (processQueue env s q).queue) = q ∧
      ((processQueue env s q).queue ≠ [] → (processQueue env s q).active.isSome = true) ∧
      (processQueue env s q).nextTxId = s.nextTxId ∧ (processQueue env s q).settled = s.settled ∧
      (∀ a, (processQueue env s q).active = some a → Fresh env a.request a) := by
  induction q with
  | nil =>
    intro s ha
    exact ⟨[], by simp [processQueue], by simp [processQueue, ha], by simp [processQueue], rfl, rfl,
      by simp [processQueue, ha]⟩
  | cons r rest ih =>
    intro s ha
    unfold processQueue
    cases hs : setUp env { s with queue := rest } r with
    | ok s' =>
      obtain ⟨a, avn, hf, rfl⟩ := setUp_ok env hs
      refine ⟨[], by simp, by simp [hf.1], by simp, rfl, rfl, ?_⟩
      intro a' h
      simp only [Option.some.injEq] at h
      subst h; rw [hf.1]; exact hf
    | error e =>
      simp only
      obtain ⟨w, hw⟩ := notifyFailed_eq env s r
      rw [hw]
      obtain ⟨dropped, h1, h2, h3, h4, h5, h6⟩ := ih { s with world := w, log := s.log ++ [failObs r] } ha
      exact ⟨r :: dropped, by rw [h1]; simp, by rw [List.cons_append, h2], h3, h4, h5, h6⟩

theorem failObs_notified (l : List Request) : notifiedTags (l.map failObs) = l.map tag := by
  induction l with
  | nil => rfl
  | cons r l ih =>
    cases r <;> simpa [notifiedTags, failObs, tag] using ih

theorem failObs_accepted (l : List Request) : acceptedTags (l.map failObs) = [] := by
  induction l with
  | nil => rfl
  | cons r l ih => cases r <;> simpa [acceptedTags, failObs] using ih

/-- `s'` is `s` after its active request was answered with `o` and the queue advanced. -/
def Finished (s : State W) (o : Obs) (s' : State W) : Prop :=
  ∃ dropped, s'.log = s.log ++ [o] ++ dropped.map failObs ∧
      dropped ++ (s'.active.toList.map Active.request ++ s'.queue) = s.queue ∧
      (s'.queue ≠ [] → s'.active.isSome = true) ∧ s'.nextTxId = s.nextTxId ∧
      (∀ a, s'.active = some a → Fresh env a.request a)

theorem processNext_finished (s mid : State W) (o : Obs) (h1 : mid.log = s.log ++ [o]) (h2 : mid.queue = s.queue)
    (h3 : mid.nextTxId = s.nextTxId) : Finished env s o (processNext env mid) := by
  obtain ⟨dropped, p1, p2, p3, p4, _, p6⟩ := processQueue_spec env mid.queue { mid with active := none } rfl
  refine ⟨dropped, ?_, ?_, p3, ?_, p6⟩
  · rw [← h1]; exact p1
  · rw [← h2]; exact p2
  · rw [← h3]; exact p4

theorem addCorr_success (d : TxData) (ok hv : Bool) (a : Nat) :
    (addCorr d ok hv a).success = if ok then d.success ++ [a] else d.success := by
  cases ok <;> cases hv <;> rfl
theorem addCorr_failure (d : TxData) (ok hv : Bool) (a : Nat) :
    (addCorr d ok hv a).failure = if ok then d.failure else d.failure ++ [a] := by
  cases ok <;> cases hv <;> rfl
theorem addCorr_rest (d : TxData) (ok hv : Bool) (a : Nat) :
    (addCorr d ok hv a).sender = d.sender ∧ (addCorr d ok hv a).ethTxHash = d.ethTxHash ∧
    (addCorr d ok hv a).expiry = d.expiry ∧ (addCorr d ok hv a).replay = d.replay := by
  cases ok <;> cases hv <;> exact ⟨rfl, rfl, rfl, rfl⟩

/-- Exhaustive description of a step. -/
inductive View (s : State W) : Step W → State W → Prop
  | quiet (op : Step W) (s' : State W) (ha : s'.active = s.active) (hq : s'.queue = s.queue) (hl : s'.log = s.log)
      (hn : s'.nextTxId = s.nextTxId ∨ s'.nextTxId = wrapInc32 s.nextTxId ∨ ∃ id, op = .setTxId id) : View s op s'
  | queued (op : Step W) (r : Request) (s' : State W) (ha : s.active.isSome = true)
      (hlen : s.queue.length < env.maxQueued) (ha' : s'.active = s.active) (hq : s'.queue = s.queue ++ [r])
      (hl : s'.log = s.log ++ [.accepted r])
      (hn : (∃ q, r = .send q ∧ q.txId = s.nextTxId ∧ s'.nextTxId = wrapInc32 s.nextTxId) ∨
        (∃ q, r = .lower q ∧ s'.nextTxId = s.nextTxId)) : View s op s'
  | activated (op : Step W) (r : Request) (a : Active) (s' : State W) (ha : s.active = none)
      (ha' : s'.active = some a) (hf : Fresh env r a) (hq : s'.queue = s.queue) (hl : s'.log = s.log ++ [.accepted r])
      (hn : (∃ q, r = .send q ∧ q.txId = s.nextTxId ∧ s'.nextTxId = wrapInc32 s.nextTxId) ∨
        (∃ q, r = .lower q ∧ s'.nextTxId = s.nextTxId)) : View s op s'
  | confirmed (id sig author : Nat) (req : Active) (ha : s.active = some req)
      (hid : req.request.idMatches id = true)
      (hauth : Avn.isValidator s.avn.validators author = true)
      (hver : verifySignature env s req.msgHash author sig = true) (hnew : sig ∉ req.confirmations) :
      View s (.confirm id sig author)
        { s with active := some { req with confirmations := req.confirmations ++ [sig], lastUpdated := s.block } }
  | lowerDone (id sig author : Nat) (req : Active) (r : LowerReq) (s' : State W) (ha : s.active = some req)
      (hr : req.request = .lower r) (hid : r.lowerId = id)
      (hauth : Avn.isValidator s.avn.validators author = true)
      (hver : verifySignature env s req.msgHash author sig = true) (hnew : sig ∉ req.confirmations)
      (henough : Avn.requiredForSupermajority (nAuthors s) ≤ (req.confirmations ++ [sig]).length)
      (hfin : Finished env s (.lowerResult r.lowerId r.callerId (some (r.params, req.confirmations ++ [sig]))) s') :
      View s (.confirm id sig author) s'
  | hashed (id h author : Nat) (req : Active) (d : TxData) (ha : s.active = some req)
      (hid : req.request.idMatches id = true) (hd : req.txData = some d) (h0 : d.ethTxHash = 0)
      (hs : d.sender = author) :
      View s (.ethTxHash id h author)
        { s with active := some { req with txData := some { d with ethTxHash := h }, lastUpdated := s.block } }
  | corroborated (id : Nat) (ok hv : Bool) (author rep : Nat) (req : Active) (d : TxData)
      (ha : s.active = some req) (hid : req.request.idMatches id = true) (hd : req.txData = some d)
      (hrep : rep = d.replay) (hauth : Avn.isValidator s.avn.validators author = true) (hns : author ≠ d.sender)
      (hnew : author ∉ d.success ∧ author ∉ d.failure) :
      View s (.corroborate id ok hv author rep)
        { s with active := some { req with txData := some (addCorr d ok hv author), lastUpdated := s.block } }
  | decided (id : Nat) (ok hv : Bool) (author rep : Nat) (req : Active) (d : TxData) (r : SendReq) (s' : State W)
      (ha : s.active = some req) (hr : req.request = .send r) (hid : r.txId = id) (hd : req.txData = some d)
      (hrep : rep = d.replay) (hauth : Avn.isValidator s.avn.validators author = true) (hns : author ≠ d.sender)
      (hnew : author ∉ d.success ∧ author ∉ d.failure)
      (henough : enoughCorroborations s
        (if ok then (addCorr d ok hv author).success else (addCorr d ok hv author).failure).length = true)
      (hfin : Finished env s (.result r.txId r.callerId ok) s') :
      View s (.corroborate id ok hv author rep) s'
  | removed (req : Active) (s' : State W) (ha : s.active = some req)
      (hfin : Finished env s (failObs req.request) s') : View s .removeActive s'
  | reset (op : Step W) (req : Active) (r : SendReq) (a : Active) (s' : State W) (ha : s.active = some req)
      (hr : req.request = .send r) (ha' : s'.active = some a) (hf : Fresh env (.send r) a)
      (hop : (∃ v i, op = .setInstance v i) ∨ (∃ id ok hv x rep, op = .corroborate id ok hv x rep ∧
        ∃ d d', req.txData = some d ∧ a.txData = some d' ∧ d'.replay = min (d.replay + 1) 65535))
      (hq : s'.queue = s.queue) (hl : s'.log = s.log)
      (hn : s'.nextTxId = s.nextTxId) : View s op s'

theorem enqueue_view (s s1 s2 : State W) (r : Request) (op : Step W) (h1 : s1.active = s.active)
    (h2 : s1.queue = s.queue) (h3 : s1.log = s.log)
    (hn : (∃ q, r = .send q ∧ q.txId = s.nextTxId ∧ s1.nextTxId = wrapInc32 s.nextTxId) ∨
        (∃ q, r = .lower q ∧ s1.nextTxId = s.nextTxId))
    (h : enqueueOrSetUp env s1 r = .ok s2) :
    View env s op { s2 with log := s2.log ++ [.accepted r] } := by
  unfold enqueueOrSetUp at h
  by_cases ha : s1.active.isSome = true
  · simp only [ha, if_true, queueRequest] at h
    by_cases hl : s1.queue.length < env.maxQueued
    · simp only [hl, if_true, Except.ok.injEq] at h
      subst h
      refine .queued op r _ (by rw [← h1]; exact ha) (by rw [← h2]; exact hl) h1 (by simp [h2]) (by simp [h3]) hn
    · simp [hl] at h
  · simp only [ha, if_false, Bool.false_eq_true] at h
    obtain ⟨a, avn, hf, rfl⟩ := setUp_ok env h
    have : s.active = none := by rw [← h1]; simpa using ha
    exact .activated op r a _ this rfl hf h2 (by simp [h3]) hn

theorem publish_view (s : State W) (name : List UInt8) (params : List Param) (caller : List UInt8) (rb : Bool) :
    View env s (.publish name params caller rb) (step env s (.publish name params caller rb)) := by
  have hid : ∀ op, View env s op s := fun op => .quiet op s rfl rfl rfl (.inl rfl)
  have hinc : ∀ op, View env s op { s with nextTxId := wrapInc32 s.nextTxId } :=
    fun op => .quiet op _ rfl rfl rfl (.inr (.inl rfl))
  have hboth : ∀ op, View env s op (if rb then s else { s with nextTxId := wrapInc32 s.nextTxId }) := by
    intro op; cases rb <;> simp [hid, hinc]
  simp only [step, publish]
  by_cases c1 : env.validUtf8 name = false
  · simp only [c1, if_true]; cases rb <;> simp [hid]
  · simp only [c1, if_false]
    by_cases c2 : name = []
    · simp only [c2, if_true]; cases rb <;> simp [hid]
    · simp only [c2, if_false]
      by_cases c3 : name.length > 32
      · simp only [c3, if_true]; exact hboth _
      · simp only [c3, if_false]
        by_cases c4 : paramsFit params = false
        · simp only [c4, if_true]; exact hboth _
        · simp only [c4, if_false]
          by_cases c5 : caller.length > 50
          · simp only [c5, if_true]; exact hboth _
          · simp only [c5, if_false]
            cases h : enqueueOrSetUp env { s with nextTxId := wrapInc32 s.nextTxId }
              (.send { txId := s.nextTxId, name := name, params := params, callerId := caller }) with
            | error e => simp only; exact hboth _
            | ok s2 =>
              simp only
              exact enqueue_view env s _ s2 _ _ (by rfl) (by rfl) (by rfl) (.inl ⟨_, rfl, rfl, rfl⟩) h

theorem lowerProof_view (s : State W) (id params : Nat) (caller : List UInt8) :
    View env s (.lowerProof id params caller) (step env s (.lowerProof id params caller)) := by
  have hid : ∀ op, View env s op s := fun op => .quiet op s rfl rfl rfl (.inl rfl)
  simp only [step, generateLowerProof]
  by_cases c5 : caller.length > 50
  · simp only [c5, if_true]; exact hid _
  · simp only [c5, if_false]
    cases h : enqueueOrSetUp env s (.lower { lowerId := id, params := params, callerId := caller }) with
    | error e => exact hid _
    | ok s2 => exact enqueue_view env s s s2 _ _ rfl rfl rfl (.inr ⟨_, rfl, rfl⟩) h

theorem confirm_view (s : State W) (id sig author : Nat) :
    View env s (.confirm id sig author) (step env s (.confirm id sig author)) := by
  have hid : ∀ op, View env s op s := fun op => .quiet op s rfl rfl rfl (.inl rfl)
  simp only [step]
  by_cases hauth : Avn.isValidator s.avn.validators author = true
  swap
  · rw [if_neg hauth]; exact hid _
  rw [if_pos hauth]
  unfold addConfirmation
  cases ha : s.active with
  | none => exact hid _
  | some req =>
    dsimp only
    by_cases c1 : req.request.idMatches id = false
    · rw [if_pos c1]; exact hid _
    rw [if_neg c1]
    by_cases c2 : enoughConfirmations s req.request req.confirmations.length = true
    · rw [if_pos c2]; exact hid _
    rw [if_neg c2]
    by_cases c0 : isSender req author = true
    · rw [if_pos c0]; exact hid _
    rw [if_neg c0]
    by_cases c3 : verifySignature env s req.msgHash author sig = false
    · rw [if_pos c3]; exact hid _
    rw [if_neg c3]
    by_cases c4 : sig ∈ req.confirmations
    · rw [if_pos c4]; exact hid _
    rw [if_neg c4]
    by_cases c5 : req.confirmations.length ≥ confirmationsLimit
    · rw [if_pos c5]; exact hid _
    rw [if_neg c5]
    have hver : verifySignature env s req.msgHash author sig = true := by simpa using c3
    have hid' : req.request.idMatches id = true := by simpa using c1
    have hc := View.confirmed (env := env) id sig author req ha hid' hauth hver c4
    cases hr : req.request with
    | send r =>
      rw [hr] at hc
      exact hc
    | lower r =>
      rw [hr] at hc
      dsimp only
      by_cases c6 : enoughConfirmations s (.lower r) (req.confirmations ++ [sig]).length = true
      · rw [if_pos c6]
        refine .lowerDone id sig author req r _ ha hr ?_ hauth hver c4 ?_ ?_
        · rw [hr] at hid'; simpa [Request.idMatches] using hid'
        · simpa [enoughConfirmations] using c6
        · exact processNext_finished env s _ _ rfl rfl rfl
      · rw [if_neg c6]
        exact hc

theorem ethTxHash_view (s : State W) (id h author : Nat) :
    View env s (.ethTxHash id h author) (step env s (.ethTxHash id h author)) := by
  have hid : ∀ op, View env s op s := fun op => .quiet op s rfl rfl rfl (.inl rfl)
  simp only [step]
  by_cases hauth : Avn.isValidator s.avn.validators author = true
  swap
  · rw [if_neg hauth]; exact hid _
  rw [if_pos hauth]
  unfold addEthTxHash
  cases ha : s.active with
  | none => exact hid _
  | some req =>
    dsimp only
    by_cases c1 : req.request.idMatches id = false
    · rw [if_pos c1]; exact hid _
    rw [if_neg c1]
    cases hd : req.txData with
    | none => exact hid _
    | some d =>
      dsimp only
      by_cases c2 : d.ethTxHash ≠ 0
      · rw [if_pos c2]; exact hid _
      rw [if_neg c2]
      by_cases c3 : d.sender ≠ author
      · rw [if_pos c3]; exact hid _
      rw [if_neg c3]
      exact .hashed id h author req d ha (by simpa using c1) hd (by simpa using c2) (by simpa using c3)

theorem corroborate_view (s : State W) (id : Nat) (ok hv : Bool) (author rep : Nat) :
    View env s (.corroborate id ok hv author rep) (step env s (.corroborate id ok hv author rep)) := by
  have hid : ∀ op, View env s op s := fun op => .quiet op s rfl rfl rfl (.inl rfl)
  simp only [step]
  by_cases hauth : Avn.isValidator s.avn.validators author = true
  swap
  · rw [if_neg hauth]; exact hid _
  rw [if_pos hauth]
  unfold addCorroboration
  cases ha : s.active with
  | none => exact hid _
  | some req =>
    dsimp only
    by_cases c1 : req.request.idMatches id = false
    · rw [if_pos c1]; exact hid _
    rw [if_neg c1]
    cases hd : req.txData with
    | none => exact hid _
    | some d =>
      dsimp only
      by_cases c2 : rep ≠ d.replay
      · rw [if_pos c2]; exact hid _
      rw [if_neg c2]
      by_cases c3 : author = d.sender
      · rw [if_pos c3]; exact hid _
      rw [if_neg c3]
      by_cases c4 : author ∈ d.success ∨ author ∈ d.failure
      · rw [if_pos c4]; exact hid _
      rw [if_neg c4]
      by_cases c5 : (if hv = true then d.validHash else d.invalidHash).length ≥ confirmationsLimit
      · rw [if_pos c5]; exact hid _
      rw [if_neg c5]
      by_cases c6 : (if ok = true then d.success else d.failure).length ≥ confirmationsLimit
      · rw [if_pos c6]; exact hid _
      rw [if_neg c6]
      have hnew : author ∉ d.success ∧ author ∉ d.failure := ⟨fun h => c4 (.inl h), fun h => c4 (.inr h)⟩
      have hrep : rep = d.replay := Classical.byContradiction c2
      have hid' : req.request.idMatches id = true := by simpa using c1
      by_cases c7 : enoughCorroborations s (if ok = true then (addCorr d ok hv author).success
        else (addCorr d ok hv author).failure).length = true
      · rw [if_pos c7]
        cases hr : req.request with
        | lower r => exact hid _
        | send r =>
          dsimp only
          have hrid : r.txId = id := by rw [hr] at hid'; simpa [Request.idMatches] using hid'
          unfold finalizeState
          by_cases c8 : (!ok && enoughCorroborations s (addCorr d ok hv author).invalidHash.length) = true
          · rw [if_pos c8]
            cases hsu : setUpTx env s r (min ((addCorr d ok hv author).replay + 1) 65535) with
            | error e => exact hid _
            | ok s' =>
              obtain ⟨a, avn, hf, ⟨d', hd', hre⟩, rfl⟩ := setUpTx_ok env hsu
              refine .reset _ req r a _ ha hr rfl hf (.inr ⟨id, ok, hv, author, rep, rfl, d, d', hd, hd', ?_⟩) rfl rfl rfl
              rw [hre, (addCorr_rest d ok hv author).2.2.2]
          · rw [if_neg c8]
            unfold completeTransaction
            dsimp only
            by_cases c9 : (env.onResult s.world r.txId r.callerId ok).2 = false
            · rw [if_pos c9]; exact hid _
            · rw [if_neg c9]
              refine .decided id ok hv author rep req d r _ ha hr hrid hd hrep hauth c3 hnew c7 ?_
              exact processNext_finished env s _ _ rfl rfl rfl
      · rw [if_neg c7]
        exact .corroborated id ok hv author rep req d ha hid' hd hrep hauth c3 hnew

/-- Every active request has transaction data exactly when it is a send request. -/
def WF (s : State W) : Prop :=
  ∀ req, s.active = some req → (req.txData.isSome = true ↔ ∃ q, req.request = .send q)

theorem step_view (s : State W) (op : Step W) : View env s op (step env s op) := by
  have hid : ∀ op, View env s op s := fun op => .quiet op s rfl rfl rfl (.inl rfl)
  cases op with
  | publish name params caller rb => exact publish_view env s name params caller rb
  | lowerProof id params caller => exact lowerProof_view env s id params caller
  | confirm id sig author => exact confirm_view env s id sig author
  | ethTxHash id h author => exact ethTxHash_view env s id h author
  | corroborate id ok hv author rep =>
    exact corroborate_view env s id ok hv author rep
  | removeActive =>
    simp only [step, removeActive]
    cases ha : s.active with
    | none => exact hid _
    | some req =>
      obtain ⟨w, hw⟩ := notifyFailed_eq env s req.request
      simp only [commit]
      exact .removed req _ ha (processNext_finished env s _ _ (by rw [hw]) (by rw [hw]) (by rw [hw]))
  | setTxId id => exact .quiet _ _ rfl rfl rfl (.inr (.inr ⟨id, rfl⟩))
  | setInstance v i =>
    simp only [step]
    unfold setInstance
    by_cases c1 : v = false
    · rw [if_pos c1]; exact hid _
    rw [if_neg c1]
    dsimp only
    have key : ∀ req r, s.active = some req → req.request = .send r →
        View env s (.setInstance v i) (commit s (setUpTx env { s with instanceId := i } r 0)) := by
      intro req r ha hr
      cases hsu : setUpTx env { s with instanceId := i } r 0 with
      | error e => exact hid _
      | ok s' =>
        obtain ⟨a, avn, hf, _, rfl⟩ := setUpTx_ok env hsu
        exact .reset _ req r a _ ha hr rfl hf (.inl ⟨v, i, rfl⟩) rfl rfl rfl
    have hq : View env s (.setInstance v i) { s with instanceId := i } := .quiet _ _ rfl rfl rfl (.inl rfl)
    split
    · rename_i req ha
      split
      · rename_i r hr; exact key req r ha hr
      · exact hq
    · exact hq
  | external w avn now block lifetime => exact .quiet _ _ rfl rfl rfl (.inl rfl)

theorem WF.step {s : State W} (hwf : WF s) (op : Step W) : WF (step env s op) := by
  have hv := step_view env s op
  generalize BridgeTx.step env s op = s' at hv
  have hfresh : ∀ (r : Request) (a : Active), Fresh env r a → (a.txData.isSome = true ↔ ∃ q, a.request = .send q) := by
    rintro r a ⟨h1, _, _, h4, _⟩
    rw [h1]; exact h4
  cases hv with
  | quiet op s' ha => intro req h; rw [ha] at h; exact hwf req h
  | queued op r s' _ _ ha => intro req h; rw [ha] at h; exact hwf req h
  | activated op r a s' _ ha hf => intro req h; rw [ha] at h; simp at h; subst h; exact hfresh r a hf
  | confirmed id sig author req ha =>
    intro req' h; simp at h; subst h; exact hwf req ha
  | lowerDone id sig author req r s' ha hr hid hauth hver hnew hen hfin =>
    obtain ⟨_, _, _, _, _, hf⟩ := hfin
    intro req' h; exact hfresh _ _ (hf req' h)
  | hashed id h author req d ha hid hd =>
    intro req' h; simp at h; subst h
    have := hwf req ha; rw [hd] at this; simpa using this
  | corroborated id ok hv author rep req d ha hid hd =>
    intro req' h; simp at h; subst h
    have := hwf req ha; rw [hd] at this; simpa using this
  | decided id ok hv author rep req d r s' ha hr hid hd hrep hauth hns hnew hen hfin =>
    obtain ⟨_, _, _, _, _, hf⟩ := hfin
    intro req' h; exact hfresh _ _ (hf req' h)
  | removed req s' ha hfin =>
    obtain ⟨_, _, _, _, _, hf⟩ := hfin
    intro req' h; exact hfresh _ _ (hf req' h)
  | reset op req r a s' ha hr ha' hf => intro req' h; rw [ha'] at h; simp at h; subst h; exact hfresh _ a hf

theorem run_snoc (s : State W) (a : List (Step W)) (op : Step W) :
    run env s (a ++ [op]) = step env (run env s a) op := by simp [run]

theorem run_wf (s : State W) (hwf : WF s) (steps : List (Step W)) : WF (run env s steps) := by
  induction steps using List.reverseRecOn with
  | nil => exact hwf
  | append_singleton steps op ih => rw [run_snoc]; exact ih.step env op

/-- Effect of answering the active request on the bookkeeping equation. -/
theorem Finished.tags {s s' : State W} {o : Obs} {req : Active} (ha : s.active = some req)
    (ho : notifiedTags [o] = [tag req.request]) (ho' : acceptedTags [o] = []) (h : Finished env s o s')
    (hinv : acceptedTags s.log = notifiedTags s.log ++ pending s) :
    acceptedTags s'.log = notifiedTags s'.log ++ pending s' ∧ (s'.queue ≠ [] → s'.active.isSome = true) ∧
      s'.queue.length ≤ s.queue.length := by
  obtain ⟨dropped, h1, h2, h3, _, _⟩ := h
  refine ⟨?_, h3, ?_⟩
  · rw [h1]
    simp only [acceptedTags_append, notifiedTags_append, ho, ho', failObs_notified, failObs_accepted, hinv, pending]
    have : s.queue = dropped ++ (s'.active.toList.map Active.request ++ s'.queue) := h2.symm
    rw [this, ha]
    simp
  · have := congrArg List.length h2
    simp at this; omega

end Verif.BridgeTx
