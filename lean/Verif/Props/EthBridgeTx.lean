import Verif.Lemmas.EthBridgeTx

/-!
# Properties C17–C22: requests sent to Ethereum

`acceptedTags log` are the accepted requests (kind, id, caller) in order of acceptance; `notifiedTags log` are the
answers given to the originating pallets, in order; `pending s` is the active request followed by the waiting ones.
-/

namespace Verif.BridgeTx

variable {W : Type} (env : Env W)

/-! ### Example world: four authors, everything hashes to 7, signature `10 * a + k` recovers to author `a` -/

/-- Authors 1 to 4. -/
def exAvn : Avn.State := { validators := [⟨1, 1⟩, ⟨2, 2⟩, ⟨3, 3⟩, ⟨4, 4⟩], primaryIndex := 0 }
/-- The example environment. -/
def exEnv : Env Nat where
  validUtf8 := fun _ => true
  fnHash := fun _ _ _ => some 7
  lowerHash := fun _ _ => some 7
  signer := fun _ sig => some (sig / 10)
  onResult := fun w _ _ _ => (w + 1, true)
  onLower := fun w _ _ _ => (w + 1, true)
  maxQueued := 2
/-- The example start state. -/
def ex0 : State Nat := initial 0 exAvn 5
/-- Three publishes (the third queues behind the second), two corroborations by different authors, then a removal. -/
def exSteps : List (Step Nat) :=
  [.publish [65] [] [1] true, .publish [66] [] [2] true, .lowerProof 9 3 [3], .publish [67] [] [4] true,
   .ethTxHash 5 1234 2, .corroborate 5 true true 1 0, .corroborate 5 true true 3 0, .removeActive]

/-! ### C17 and C20 -/

theorem run_queue_inv (s0 : State W) (h0 : acceptedTags s0.log = notifiedTags s0.log ++ pending s0)
    (hq0 : s0.queue ≠ [] → s0.active.isSome = true) (hl0 : s0.queue.length ≤ env.maxQueued) (steps : List (Step W)) :
    acceptedTags (run env s0 steps).log = notifiedTags (run env s0 steps).log ++ pending (run env s0 steps) ∧
      ((run env s0 steps).queue ≠ [] → (run env s0 steps).active.isSome = true) ∧
      (run env s0 steps).queue.length ≤ env.maxQueued := by
  induction steps using List.reverseRecOn with
  | nil => exact ⟨h0, hq0, hl0⟩
  | append_singleton steps op ih =>
    rw [run_snoc]
    have hv := step_view env (run env s0 steps) op
    generalize run env s0 steps = s at hv ih
    generalize step env s op = s' at hv
    obtain ⟨i1, i2, i3⟩ := ih
    cases hv with
    | quiet op s' ha hq hl => simp only [pending, ha, hq, hl]; exact ⟨i1, i2, i3⟩
    | queued op r s' ha hlen ha' hq hl hn =>
      refine ⟨?_, ?_, ?_⟩
      · have h1 : acceptedTags s'.log = acceptedTags s.log ++ [tag r] := by rw [hl]; simp [acceptedTags]
        have h2 : notifiedTags s'.log = notifiedTags s.log := by rw [hl]; simp [notifiedTags]
        rw [h1, h2, i1]; simp [pending, ha', hq]
      · intro _; rw [ha']; exact ha
      · rw [hq]; simp; omega
    | activated op r a s' ha ha' hf hq hl hn =>
      have hqe : s.queue = [] := by
        refine Classical.byContradiction (fun hne => ?_)
        have := i2 hne; simp [ha] at this
      refine ⟨?_, ?_, ?_⟩
      · have h1 : acceptedTags s'.log = acceptedTags s.log ++ [tag r] := by rw [hl]; simp [acceptedTags]
        have h2 : notifiedTags s'.log = notifiedTags s.log := by rw [hl]; simp [notifiedTags]
        rw [h1, h2, i1]; simp [pending, ha, ha', hq, hqe, hf.1]
      · intro _; simp [ha']
      · rw [hq]; exact i3
    | confirmed id sig author req ha =>
      refine ⟨?_, by simp, i3⟩
      simpa [pending, ha] using i1
    | lowerDone id sig author req r s' ha hr hid hauth hver hnew hen hfin =>
      obtain ⟨f1, f2, f3⟩ := hfin.tags env ha (by simp [notifiedTags, hr, tag]) (by simp [acceptedTags]) i1
      exact ⟨f1, f2, by omega⟩
    | hashed id h author req d ha =>
      refine ⟨?_, by simp, i3⟩
      simpa [pending, ha] using i1
    | corroborated id ok hv author rep req d ha =>
      refine ⟨?_, by simp, i3⟩
      simpa [pending, ha] using i1
    | decided id ok hv author rep req d r s' ha hr hid hd hrep hauth hns hnew hen hfin =>
      obtain ⟨f1, f2, f3⟩ := hfin.tags env ha (by simp [notifiedTags, hr, tag]) (by simp [acceptedTags]) i1
      exact ⟨f1, f2, by omega⟩
    | removed req s' ha hfin =>
      have ho : notifiedTags [failObs req.request] = [tag req.request] := by
        cases req.request <;> simp [notifiedTags, failObs, tag]
      have ho' : acceptedTags [failObs req.request] = [] := by
        cases req.request <;> simp [acceptedTags, failObs]
      obtain ⟨f1, f2, f3⟩ := hfin.tags env ha ho ho' i1
      exact ⟨f1, f2, by omega⟩
    | reset op req r a s' ha hr ha' hf hop hq hl hn =>
      refine ⟨?_, by simp [ha'], by rw [hq]; exact i3⟩
      rw [hl]
      simpa [pending, ha, ha', hq, hf.1, hr] using i1

/-- **C17.** In every history from genesis: the accepted requests, in order of acceptance, are exactly those already
answered (in the order of their answers), then the active one, then the waiting ones in queue order. So requests are
served first in first out and none is lost or answered twice. At most `MaxQueuedTxRequests` wait, and only while one is
active. -/
theorem C17_fifo_and_loss_free (w : W) (avn : Avn.State) (n : Nat) (steps : List (Step W)) :
    let s := run env (initial w avn n) steps
    acceptedTags s.log = notifiedTags s.log ++ (s.active.toList.map (fun a => tag a.request) ++ s.queue.map tag) ∧
      (s.queue ≠ [] → s.active.isSome = true) ∧ s.queue.length ≤ env.maxQueued := by
  intro s
  have := run_queue_inv env (initial w avn n) (by simp [initial, acceptedTags, notifiedTags, pending])
    (by simp [initial]) (by simp [initial]) steps
  refine ⟨?_, this.2.1, this.2.2⟩
  have h := this.1
  simpa [pending, Function.comp_def] using h

/-- Non-vacuity: after `exSteps` the first request was answered by corroboration, the second by the administrator, the lower
proof is active and nothing waits (the fourth request was refused: queue full). -/
example :
    acceptedTags (run exEnv ex0 exSteps).log = [(true, 5, [1]), (true, 6, [2]), (false, 9, [3])] ∧
    notifiedTags (run exEnv ex0 exSteps).log = [(true, 5, [1]), (true, 6, [2])] ∧
    ((run exEnv ex0 exSteps).active.map (fun a => tag a.request)) = some (false, 9, [3]) ∧
    (run exEnv ex0 exSteps).queue = [] ∧ (run exEnv ex0 (exSteps.take 4)).queue.length = 2 := by
  decide +kernel

/-! ### C18 -/

/-- Transaction ids of the accepted send requests, in order. -/
def sendIds (log : List Obs) : List Nat :=
  log.filterMap (fun | .accepted (.send r) => some r.txId | _ => none)

theorem sendIds_append (a b : List Obs) : sendIds (a ++ b) = sendIds a ++ sendIds b := by simp [sendIds]

theorem sendIds_failObs (l : List Request) : sendIds (l.map failObs) = [] := by
  induction l with
  | nil => rfl
  | cons r l ih => cases r <;> simpa [sendIds, failObs] using ih

theorem step_ids (s : State W) (op : Step W) (hop : ∀ id, op ≠ .setTxId id) (hs : s.nextTxId + 1 < 2 ^ 32) :
    (sendIds (step env s op).log = sendIds s.log ∧
      (s.nextTxId ≤ (step env s op).nextTxId ∧ (step env s op).nextTxId ≤ s.nextTxId + 1)) ∨
    (sendIds (step env s op).log = sendIds s.log ++ [s.nextTxId] ∧ (step env s op).nextTxId = s.nextTxId + 1) := by
  have hw : wrapInc32 s.nextTxId = s.nextTxId + 1 := by
    unfold wrapInc32 pow32; omega
  have hv := step_view env s op
  generalize step env s op = s' at hv
  have hfin : ∀ o, sendIds [o] = [] → Finished env s o s' → sendIds s'.log = sendIds s.log ∧
      (s.nextTxId ≤ s'.nextTxId ∧ s'.nextTxId ≤ s.nextTxId + 1) := by
    intro o ho hf
    obtain ⟨dr, h1, _, _, h4, _⟩ := hf
    rw [h1, sendIds_append, sendIds_append, ho, sendIds_failObs]
    exact ⟨by simp, by omega⟩
  cases hv with
  | quiet op s' ha hq hl hn =>
    left
    rw [hl]
    refine ⟨rfl, ?_⟩
    rcases hn with h | h | ⟨id, h⟩
    · omega
    · omega
    · exact absurd h (hop id)
  | queued op r s' ha hlen ha' hq hl hn =>
    rcases hn with ⟨q, rfl, h1, h2⟩ | ⟨q, rfl, h2⟩
    · right; rw [hl, sendIds_append, h2, hw]; simp [sendIds, h1]
    · left; rw [hl, sendIds_append, h2]; simp [sendIds]
  | activated op r a s' ha ha' hf hq hl hn =>
    rcases hn with ⟨q, rfl, h1, h2⟩ | ⟨q, rfl, h2⟩
    · right; rw [hl, sendIds_append, h2, hw]; simp [sendIds, h1]
    · left; rw [hl, sendIds_append, h2]; simp [sendIds]
  | confirmed id sig author req ha => left; simp
  | lowerDone id sig author req r s' ha hr hid hauth hver hnew hen hf => left; exact hfin _ (by simp [sendIds]) hf
  | hashed id h author req d ha => left; simp
  | corroborated id ok hv author rep req d ha => left; simp
  | decided id ok hv author rep req d r s' ha hr hid hd hrep hauth hns hnew hen hf =>
    left; exact hfin _ (by simp [sendIds]) hf
  | removed req s' ha hf =>
    left
    refine hfin _ ?_ hf
    cases req.request <;> simp [sendIds, failObs]
  | reset op req r a s' ha hr ha' hf hop hq hl hn => left; rw [hl]; exact ⟨rfl, by omega⟩

/-- **C18.** Along every history without an administrative reset of the counter and in which the counter does not wrap
(each step publishes at most once), the ids of accepted send requests are strictly increasing, none is below the
starting counter, and the counter is above all of them. -/
theorem C18_ids_strictly_increase (w : W) (avn : Avn.State) (n : Nat) (steps : List (Step W))
    (hreset : ∀ op ∈ steps, ∀ id, op ≠ .setTxId id) (hwrap : n + steps.length < 2 ^ 32) :
    let s := run env (initial w avn n) steps
    (sendIds s.log).Pairwise (· < ·) ∧ (∀ i ∈ sendIds s.log, n ≤ i ∧ i < s.nextTxId) := by
  have key : (sendIds (run env (initial w avn n) steps).log).Pairwise (· < ·) ∧
      (∀ i ∈ sendIds (run env (initial w avn n) steps).log, n ≤ i ∧ i < (run env (initial w avn n) steps).nextTxId) ∧
      n ≤ (run env (initial w avn n) steps).nextTxId ∧
      (run env (initial w avn n) steps).nextTxId ≤ n + steps.length := by
    induction steps using List.reverseRecOn with
    | nil => simp [run, initial, sendIds]
    | append_singleton steps op ih =>
      have hlen : (steps ++ [op]).length = steps.length + 1 := by simp
      obtain ⟨i1, i2, i3, i4⟩ := ih (fun o ho => hreset o (by simp [ho])) (by omega)
      rw [run_snoc]
      generalize run env (initial w avn n) steps = s at i1 i2 i3 i4 ⊢
      rcases step_ids env s op (hreset op (by simp)) (by omega) with ⟨h1, h2⟩ | ⟨h1, h2⟩
      · rw [h1]
        refine ⟨i1, fun i hi => ?_, by omega, by omega⟩
        have := i2 i hi; omega
      · rw [h1, h2]
        refine ⟨?_, ?_, by omega, by omega⟩
        · rw [List.pairwise_append]
          refine ⟨i1, by simp, ?_⟩
          intro a ha b hb
          have : b = s.nextTxId := by simpa using hb
          have := i2 a ha; omega
        · intro i hi
          rcases List.mem_append.1 hi with hi | hi
          · have := i2 i hi; omega
          · have : i = s.nextTxId := by simpa using hi
            omega
  exact ⟨key.1, key.2.1⟩

/-- Non-vacuity. -/
example : sendIds (run exEnv ex0 exSteps).log = [5, 6] ∧ (∀ op ∈ exSteps, ∀ id, op ≠ .setTxId id) := by
  refine ⟨by decide +kernel, ?_⟩
  intro op hop id
  simp [exSteps] at hop
  rcases hop with rfl | rfl | rfl | rfl | rfl | rfl | rfl | rfl <;> simp

/-! ### C20 -/

/-- **C20.** In every history from genesis without a counter reset or wrap, no transaction id is reported twice to its
originating pallet, every report is for an accepted request of that caller with that id, and a request that was
reported is neither active nor waiting. -/
theorem C20_each_send_request_answered_at_most_once (w : W) (avn : Avn.State) (n : Nat) (steps : List (Step W))
    (hreset : ∀ op ∈ steps, ∀ id, op ≠ .setTxId id) (hwrap : n + steps.length < 2 ^ 32) :
    let s := run env (initial w avn n) steps
    ((notifiedTags s.log).filter (fun t => t.1)).Nodup ∧
      (∀ id c ok, Obs.result id c ok ∈ s.log → ∃ r, Obs.accepted (.send r) ∈ s.log ∧ r.txId = id ∧ r.callerId = c) ∧
      (∀ id c ok, Obs.result id c ok ∈ s.log →
        (∀ a r, s.active = some a → a.request = .send r → r.txId ≠ id) ∧ (∀ r, Request.send r ∈ s.queue → r.txId ≠ id)) := by
  intro s
  obtain ⟨h1, _, _⟩ := C17_fifo_and_loss_free env w avn n steps
  obtain ⟨h2, _⟩ := C18_ids_strictly_increase env w avn n steps hreset hwrap
  change acceptedTags s.log = _ at h1
  change (sendIds s.log).Pairwise (· < ·) at h2
  have hids : ∀ log : List Obs, ((acceptedTags log).filter (fun t => t.1)).map (fun t => t.2.1) = sendIds log := by
    intro log
    induction log with
    | nil => rfl
    | cons o log ih =>
      have hc : acceptedTags (o :: log) = acceptedTags [o] ++ acceptedTags log := acceptedTags_append [o] log
      have hc' : sendIds (o :: log) = sendIds [o] ++ sendIds log := sendIds_append [o] log
      rw [hc, hc', ← ih]
      cases o with
      | accepted r => cases r <;> simp [acceptedTags, sendIds, tag]
      | _ => simp [acceptedTags, sendIds]
  have hnd : (sendIds s.log).Nodup := h2.imp (fun h => Nat.ne_of_lt h)
  have hnd2 : (((acceptedTags s.log).filter (fun t => t.1)).map (fun t => t.2.1)).Nodup := by rw [hids]; exact hnd
  rw [h1, List.filter_append, List.map_append, List.nodup_append] at hnd2
  obtain ⟨n1, _, n3⟩ := hnd2
  have hmem : ∀ id c ok, Obs.result id c ok ∈ s.log → (true, id, c) ∈ notifiedTags s.log := by
    intro id c ok h
    exact List.mem_filterMap.2 ⟨_, h, rfl⟩
  refine ⟨List.Nodup.of_map _ n1, ?_, ?_⟩
  · intro id c ok h
    have hm : (true, id, c) ∈ acceptedTags s.log := by rw [h1]; exact List.mem_append_left _ (hmem id c ok h)
    obtain ⟨o, ho, he⟩ := List.mem_filterMap.1 hm
    cases o with
    | accepted r =>
      cases r with
      | send r =>
        simp [tag] at he
        exact ⟨r, ho, he.1, he.2⟩
      | lower r => simp [tag] at he
    | _ => simp at he
  · intro id c ok h
    have hidm : id ∈ ((notifiedTags s.log).filter (fun t => t.1)).map (fun t => t.2.1) :=
      List.mem_map.2 ⟨_, List.mem_filter.2 ⟨hmem id c ok h, rfl⟩, rfl⟩
    constructor
    · intro a r ha hr he
      refine n3 id hidm r.txId ?_ he.symm
      refine List.mem_map.2 ⟨(true, r.txId, r.callerId), List.mem_filter.2 ⟨?_, rfl⟩, rfl⟩
      refine List.mem_append_left _ ?_
      change (run env (initial w avn n) steps).active = some a at ha
      rw [ha]; simp [hr, tag]
    · intro r hr he
      refine n3 id hidm r.txId ?_ he.symm
      refine List.mem_map.2 ⟨(true, r.txId, r.callerId), List.mem_filter.2 ⟨?_, rfl⟩, rfl⟩
      exact List.mem_append_right _ (List.mem_map.2 ⟨_, hr, rfl⟩)

/-- Non-vacuity: two answers, for ids 5 and 6. -/
example : (run exEnv ex0 exSteps).log.filter (fun | .result .. => true | _ => false) =
    [.result 5 [1] true, .result 6 [2] false] := by decide +kernel

/-! ### C19 -/

/-- Identity of the current attempt at an active request: the request, and sender, expiry and attempt number. -/
def attempt (s : State W) : Option (Request × Option (Nat × Nat × Nat)) :=
  s.active.map (fun a => (a.request, a.txData.map (fun d => (d.sender, d.expiry, d.replay))))

/-- During `steps`, author `x` (an author at that time) called `add_corroboration` for transaction `id` with outcome
`ok`, and from that call until now the same attempt stayed active. -/
def Corroborated (s0 : State W) (steps : List (Step W)) (id : Nat) (ok : Bool) (x : Nat) : Prop :=
  ∃ pre post hv rep, steps = pre ++ .corroborate id ok hv x rep :: post ∧
    Avn.isValidator (run env s0 pre).avn.validators x = true ∧
    ∀ k, k ≤ post.length → attempt (run env s0 (pre ++ .corroborate id ok hv x rep :: post.take k)) =
      attempt (run env s0 steps)

theorem Corroborated.mono {s0 : State W} {steps : List (Step W)} {id : Nat} {ok : Bool} {x : Nat} (op : Step W)
    (hsame : attempt (run env s0 (steps ++ [op])) = attempt (run env s0 steps))
    (h : Corroborated env s0 steps id ok x) : Corroborated env s0 (steps ++ [op]) id ok x := by
  obtain ⟨pre, post, hv, rep, rfl, h1, h2⟩ := h
  refine ⟨pre, post ++ [op], hv, rep, by simp, h1, ?_⟩
  intro k hk
  by_cases hk' : k ≤ post.length
  · rw [List.take_append_of_le_length hk', hsame]; exact h2 k hk'
  · have : k = post.length + 1 := by simp at hk; omega
    subst this
    have : (post ++ [op]).take (post.length + 1) = post ++ [op] := by
      rw [List.take_of_length_le]; simp
    rw [this]; simp

/-- Who is recorded as having corroborated the active transaction. -/
def CorrInv (s0 : State W) (steps : List (Step W)) : Prop :=
  ∀ req d r, (run env s0 steps).active = some req → req.txData = some d → req.request = .send r →
    (d.success ++ d.failure).Nodup ∧ d.sender ∉ d.success ++ d.failure ∧
    (∀ x ∈ d.success, Corroborated env s0 steps r.txId true x) ∧
    (∀ x ∈ d.failure, Corroborated env s0 steps r.txId false x)

theorem corrInv_fresh {s0 : State W} {steps : List (Step W)} {r : Request}
    (h : ∀ req, (run env s0 steps).active = some req → Fresh env r req ∨ Fresh env req.request req) : CorrInv env s0 steps := by
  intro req d q ha hd hr
  have : d.success = [] ∧ d.failure = [] ∧ d.ethTxHash = 0 := by
    rcases h req ha with hf | hf <;> exact hf.2.2.1 d hd
  simp [this.1, this.2.1]

theorem run_corrInv (s0 : State W) (h0 : s0.active = none) (steps : List (Step W)) : CorrInv env s0 steps := by
  induction steps using List.reverseRecOn with
  | nil => intro req d r ha; simp [run, h0] at ha
  | append_singleton steps op ih =>
    have hv := step_view env (run env s0 steps) op
    have hsn := run_snoc env s0 steps op
    rw [← hsn] at hv
    generalize hs : run env s0 steps = s at hv
    generalize hs' : run env s0 (steps ++ [op]) = s' at hv
    have keep : ∀ (hatt : attempt s' = attempt s) (req : Active) (d : TxData) (r : SendReq),
        s.active = some req → req.txData = some d → req.request = .send r →
        (d.success ++ d.failure).Nodup ∧ d.sender ∉ d.success ++ d.failure ∧
        (∀ x ∈ d.success, Corroborated env s0 (steps ++ [op]) r.txId true x) ∧
        (∀ x ∈ d.failure, Corroborated env s0 (steps ++ [op]) r.txId false x) := by
      intro hatt req d r ha hd hr
      obtain ⟨i1, i2, i3, i4⟩ := ih req d r (by rw [hs]; exact ha) hd hr
      have hatt' : attempt (run env s0 (steps ++ [op])) = attempt (run env s0 steps) := by rw [hs, hs']; exact hatt
      exact ⟨i1, i2, fun x hx => (i3 x hx).mono env op hatt', fun x hx => (i4 x hx).mono env op hatt'⟩
    have hfresh : (∀ req, s'.active = some req → Fresh env req.request req) → CorrInv env s0 (steps ++ [op]) := by
      intro h req d r ha hd hr
      rw [hs'] at ha
      have := (h req ha).2.2.1 d hd
      simp [this.1, this.2.1]
    cases hv with
    | quiet op s' ha hq hl hn =>
      intro req d r hreq hd hr
      rw [hs', ha] at hreq
      exact keep (by simp [attempt, ha]) req d r hreq hd hr
    | queued op q s' ha hlen ha' hq hl hn =>
      intro req d r hreq hd hr
      rw [hs', ha'] at hreq
      exact keep (by simp [attempt, ha']) req d r hreq hd hr
    | activated op q a s' ha ha' hf hq hl hn =>
      refine hfresh ?_
      intro req h; rw [ha'] at h; simp at h; subst h; rw [hf.1]; exact hf
    | confirmed id sig author req ha =>
      intro req' d r hreq hd hr
      rw [hs'] at hreq
      simp only [Option.some.injEq] at hreq
      subst hreq
      exact keep (by simp [attempt, ha]) req d r ha hd hr
    | lowerDone id sig author req q s' ha hr hid hauth hver hnew hen hfin =>
      obtain ⟨_, _, _, _, _, hf⟩ := hfin
      exact hfresh hf
    | hashed id h author req d ha hid hd h0 hsend =>
      intro req' d' r hreq hd' hr
      rw [hs'] at hreq
      simp only [Option.some.injEq] at hreq
      subst hreq
      simp only [Option.some.injEq] at hd'
      subst hd'
      exact keep (by simp [attempt, ha, hd]) req d r ha hd hr
    | corroborated id ok hv author rep req d ha hid hd hrep hauth hns hnew =>
      intro req' d' r hreq hd' hr
      have hsActive := hreq
      rw [hs'] at hreq
      simp only [Option.some.injEq] at hreq
      subst hreq
      simp only [Option.some.injEq] at hd'
      subst hd'
      have hr' : req.request = .send r := hr
      obtain ⟨a1, a2, a3, a4⟩ := addCorr_rest d ok hv author
      have hatt : attempt { s with
          active := some { req with txData := some (addCorr d ok hv author), lastUpdated := s.block } } = attempt s := by
        simp [attempt, ha, hd, a1, a3, a4]
      obtain ⟨k1, k2, k3, k4⟩ := keep hatt req d r ha hd hr'
      have hidr : r.txId = id := by rw [hr'] at hid; simpa [Request.idMatches] using hid
      have hthis : Corroborated env s0 (steps ++ [.corroborate id ok hv author rep]) r.txId ok author := by
        refine ⟨steps, [], hv, rep, by rw [hidr], by rw [hs]; exact hauth, ?_⟩
        intro k hk
        simp [hidr]
      rw [List.nodup_append] at k1
      rw [addCorr_success, addCorr_failure, a1]
      cases ok with
      | true =>
        simp only [if_true]
        refine ⟨?_, ?_, ?_, k4⟩
        · rw [List.append_assoc, List.nodup_append]
          refine ⟨k1.1, ?_, ?_⟩
          · simp [k1.2.1, hnew.2]
          · intro x hx y hy hxy
            subst hxy
            rcases List.mem_cons.1 hy with rfl | hy
            · exact hnew.1 hx
            · exact k1.2.2 x hx x hy rfl
        · simp only [List.mem_append, not_or] at k2 ⊢
          refine ⟨⟨k2.1, ?_⟩, k2.2⟩
          simpa using hns.symm
        · intro x hx
          rcases List.mem_append.1 hx with hx | hx
          · exact k3 x hx
          · have : x = author := by simpa using hx
            subst this; exact hthis
      | false =>
        simp only [Bool.false_eq_true, if_false]
        refine ⟨?_, ?_, k3, ?_⟩
        · rw [← List.append_assoc, List.nodup_append]
          refine ⟨List.nodup_append.2 k1, by simp, ?_⟩
          intro x hx y hy hxy
          have : y = author := by simpa using hy
          subst this; subst hxy
          rcases List.mem_append.1 hx with hx | hx
          · exact hnew.1 hx
          · exact hnew.2 hx
        · simp only [List.mem_append, not_or] at k2 ⊢
          refine ⟨k2.1, k2.2, ?_⟩
          simpa using hns.symm
        · intro x hx
          rcases List.mem_append.1 hx with hx | hx
          · exact k4 x hx
          · have : x = author := by simpa using hx
            subst this; exact hthis
    | decided id ok hv author rep req d q s' ha hr hid hd hrep hauth hns hnew hen hfin =>
      obtain ⟨_, _, _, _, _, hf⟩ := hfin
      exact hfresh hf
    | removed req s' ha hfin =>
      obtain ⟨_, _, _, _, _, hf⟩ := hfin
      exact hfresh hf
    | reset op req q a s' ha hr ha' hf hop hq hl hn =>
      refine hfresh ?_
      intro req' h; rw [ha'] at h; simp at h; subst h; rw [hf.1]; exact hf

/-- **C19.** Suppose the last step of a history is an `add_corroboration` call of author `a` in which the originating
pallet of the active transaction `r` is told the outcome `ok`. Then that is the outcome `a` reported, and there are pairwise
different accounts, none of them the assigned sender, at least the quorum of (number of authors - 1) many, each of which
reported outcome `ok` for this transaction in the current attempt: `a` in this call, the others in earlier calls since
which the attempt did not change. -/
theorem C19_outcome_needs_quorum (s0 : State W) (h0 : s0.active = none) (steps : List (Step W)) (id : Nat)
    (okArg hv : Bool) (a rep : Nat) (req : Active) (r : SendReq) (d : TxData) (ok : Bool)
    (hn : 0 < (run env s0 steps).avn.validators.length ∧ (run env s0 steps).avn.validators.length < 2 ^ 32)
    (hact : (run env s0 steps).active = some req) (hr : req.request = .send r) (hd : req.txData = some d)
    (hlog : ∃ more, (run env s0 (steps ++ [.corroborate id okArg hv a rep])).log =
      (run env s0 steps).log ++ .result r.txId r.callerId ok :: more) :
    okArg = ok ∧ id = r.txId ∧ ∃ who : List Nat, who.Nodup ∧ d.sender ∉ who ∧ a ∈ who ∧
      Avn.requiredFor ((run env s0 steps).avn.validators.length - 1) ≤ who.length ∧
      ∀ x ∈ who, x ≠ a → Corroborated env s0 steps id ok x := by
  obtain ⟨more, hlog⟩ := hlog
  have hinv := run_corrInv env s0 h0 steps
  rw [run_snoc] at hlog
  have hv' := step_view env (run env s0 steps) (.corroborate id okArg hv a rep)
  unfold CorrInv at hinv
  have hinv' := hinv req d r hact hd hr
  clear hinv
  generalize hs : run env s0 steps = s at hv' hlog hact hn
  generalize step env s (.corroborate id okArg hv a rep) = s' at hv' hlog
  cases hv' with
  | quiet op s' ha hq hl hn => rw [hl] at hlog; simp at hlog
  | queued op q s' ha hlen ha' hq hl hn =>
    rw [hl] at hlog; have := List.append_cancel_left hlog; simp at this
  | activated op q a s' ha ha' hf hq hl hn =>
    rw [hl] at hlog; have := List.append_cancel_left hlog; simp at this
  | corroborated id ok hv author rep req d ha => simp at hlog
  | reset op req q a s' ha hr ha' hf hop hq hl hn => rw [hl] at hlog; simp at hlog
  | decided _ _ _ _ _ req' d' q s' ha hr' hid hd' hrep hauth hns hnew hen hfin =>
    rw [hact] at ha
    simp only [Option.some.injEq] at ha
    subst ha
    rw [hd] at hd'
    simp only [Option.some.injEq] at hd'
    subst hd'
    rw [hr] at hr'
    simp only [Request.send.injEq] at hr'
    subst hr'
    obtain ⟨dropped, hl, _⟩ := hfin
    rw [hl, List.append_assoc] at hlog
    have hl2 := List.append_cancel_left hlog
    simp only [List.singleton_append, List.cons.injEq, Obs.result.injEq] at hl2
    have hok : okArg = ok := hl2.1.2.2
    subst hok
    refine ⟨rfl, hid.symm, (if okArg then d.success else d.failure) ++ [a], ?_, ?_, by simp, ?_, ?_⟩
    · obtain ⟨i1, i2, i3, i4⟩ := hinv'
      rw [List.nodup_append] at i1
      rw [List.nodup_append]
      refine ⟨?_, by simp, ?_⟩
      · cases okArg
        · exact i1.2.1
        · exact i1.1
      · intro x hx y hy hxy
        have hya : y = a := by simpa using hy
        subst hya; subst hxy
        cases okArg
        · exact hnew.2 hx
        · exact hnew.1 hx
    · obtain ⟨i1, i2, i3, i4⟩ := hinv'
      simp only [List.mem_append, not_or] at i2
      cases okArg
      · simp; exact ⟨i2.2, fun h => hns h.symm⟩
      · simp; exact ⟨i2.1, fun h => hns h.symm⟩
    · rw [addCorr_success, addCorr_failure] at hen
      unfold enoughCorroborations nAuthors at hen
      have hw : (s.avn.validators.length + pow32 - 1) % pow32 = s.avn.validators.length - 1 := by
        unfold pow32; omega
      rw [hw] at hen
      cases okArg <;> simpa using hen
    · obtain ⟨i1, i2, i3, i4⟩ := hinv'
      intro x hx hxa
      rw [← hid]
      rcases List.mem_append.1 hx with hx | hx
      · cases okArg
        · exact i4 x hx
        · exact i3 x hx
      · exact absurd (by simpa using hx) hxa

/-- **C19, once per attempt.** A repeated corroboration by the same author in one attempt changes nothing. -/
theorem C19_author_counted_once (s : State W) (id : Nat) (ok hv : Bool) (a rep : Nat) (req : Active) (d : TxData)
    (hact : s.active = some req) (hd : req.txData = some d) (ha : a ∈ d.success ∨ a ∈ d.failure) :
    step env s (.corroborate id ok hv a rep) = s := by
  simp only [step]
  by_cases hauth : Avn.isValidator s.avn.validators a = true
  · rw [if_pos hauth]
    unfold addCorroboration
    rw [hact]
    dsimp only
    by_cases c1 : req.request.idMatches id = false
    · rw [if_pos c1]; rfl
    rw [if_neg c1, hd]
    dsimp only
    by_cases c2 : rep ≠ d.replay
    · rw [if_pos c2]; rfl
    rw [if_neg c2]
    by_cases c3 : a = d.sender
    · rw [if_pos c3]; rfl
    rw [if_neg c3, if_pos ha]; rfl
  · rw [if_neg hauth]

/-- **C19, the administrator.** Any other way the caller of a send request is told an outcome reports failure. -/
theorem C19_success_only_by_corroboration (s : State W) (op : Step W) (id : Nat) (c : List UInt8) (more : List Obs)
    (hop : ∀ i o h x r, op ≠ .corroborate i o h x r) (hlog : (step env s op).log = s.log ++ more) :
    Obs.result id c true ∉ more := by
  have hv := step_view env s op
  generalize step env s op = s' at hv hlog
  have hdr : ∀ dropped : List Request, Obs.result id c true ∉ dropped.map failObs := by
    intro dropped h
    obtain ⟨q, _, hq⟩ := List.mem_map.1 h
    cases q <;> simp [failObs] at hq
  have hfin : ∀ o, Obs.result id c true ≠ o → Finished env s o s' → Obs.result id c true ∉ more := by
    intro o ho hf
    obtain ⟨dropped, hl, _⟩ := hf
    rw [hl, List.append_assoc] at hlog
    rw [← List.append_cancel_left hlog]
    simp only [List.singleton_append, List.mem_cons, not_or]
    exact ⟨ho, hdr dropped⟩
  cases hv with
  | quiet op s' ha hq hl hn =>
    rw [hl] at hlog
    have : more = [] := by simpa using hlog
    simp [this]
  | queued op q s' ha hlen ha' hq hl hn =>
    rw [hl] at hlog; have := List.append_cancel_left hlog; simp [← this]
  | activated op q a s' ha ha' hf hq hl hn =>
    rw [hl] at hlog; have := List.append_cancel_left hlog; simp [← this]
  | confirmed id sig author req ha => have : more = [] := by simpa using hlog
                                      simp [this]
  | lowerDone id sig author req r s' ha hr hid hauth hver hnew hen hf => exact hfin _ (by simp) hf
  | hashed id h author req d ha => have : more = [] := by simpa using hlog
                                   simp [this]
  | corroborated i ok hv author rep req d ha => exact absurd rfl (hop i ok hv author rep)
  | decided i ok hv author rep req d r s' => exact absurd rfl (hop i ok hv author rep)
  | removed req s' ha hf =>
    refine hfin _ ?_ hf
    cases req.request <;> simp [failObs]
  | reset op req q a s' ha hr ha' hf hop hq hl hn =>
    rw [hl] at hlog
    have : more = [] := by simpa using hlog
    simp [this]

/-- Non-vacuity: four authors, so the quorum of the other three is one: author 1's corroboration decides the outcome. -/
example : Avn.requiredFor (4 - 1) = 1 ∧
    (run exEnv ex0 (exSteps.take 5)).active.map (fun a => a.txData.map (fun d => (d.sender, d.ethTxHash))) =
      some (some (2, 1234)) ∧
    (run exEnv ex0 (exSteps.take 6)).log = (run exEnv ex0 (exSteps.take 5)).log ++ [.result 5 [1] true] := by
  decide +kernel

/-! ### C22 -/

/-- The Ethereum transaction hash recorded for the active transaction. -/
def recordedHash (s : State W) : Option Nat := s.active.bind (fun a => a.txData.map TxData.ethTxHash)

/-- **C22.** If a step changes the recorded Ethereum transaction hash, then either the attempt ended (the request was
answered, its attempt number changed, or an administrator re-set the bridge instance) or it is the `add_eth_tx_hash`
call of the assigned sender, and no hash had been recorded before. -/
theorem C22_hash_write_once (s : State W) (op : Step W) (req : Active) (d : TxData)
    (hact : s.active = some req) (hd : req.txData = some d) (hop : ∀ v i, op ≠ .setInstance v i)
    (hopen : notifiedTags (step env s op).log = notifiedTags s.log)
    (hsame : attempt (step env s op) = attempt s) (hreplay : d.replay < 65535)
    (hchg : recordedHash (step env s op) ≠ recordedHash s) :
    ∃ id h, op = .ethTxHash id h d.sender ∧ d.ethTxHash = 0 ∧ recordedHash (step env s op) = some h := by
  have hv := step_view env s op
  generalize step env s op = s' at hv hsame hchg hopen
  have hfin : ∀ o, notifiedTags [o] ≠ [] → Finished env s o s' → False := by
    rintro o ho ⟨dr, h1, _⟩
    rw [h1] at hopen
    simp only [notifiedTags_append, List.append_assoc] at hopen
    have := List.append_right_eq_self.1 hopen
    exact ho (List.append_eq_nil_iff.1 this).1
  cases hv with
  | quiet op s' ha hq hl hn => exact absurd (by simp [recordedHash, ha]) hchg
  | queued op q s' ha hlen ha' hq hl hn => exact absurd (by simp [recordedHash, ha']) hchg
  | activated op q a s' ha ha' hf hq hl hn => simp [hact] at ha
  | confirmed id sig author req' ha => exact absurd (by simp [recordedHash, ha]) hchg
  | lowerDone id sig author req r s' ha hr hid hauth hver hnew hen hf =>
    exact (hfin _ (by simp [notifiedTags]) hf).elim
  | hashed id h author req' d' ha hid hd' h0 hs =>
    rw [hact] at ha
    simp only [Option.some.injEq] at ha
    subst ha
    rw [hd] at hd'
    simp only [Option.some.injEq] at hd'
    subst hd'
    subst hs
    exact ⟨id, h, rfl, h0, by simp [recordedHash]⟩
  | corroborated i ok hv author rep req' d' ha hid hd' =>
    refine absurd ?_ hchg
    simp [recordedHash, ha, hd', (addCorr_rest d' ok hv author).2.1]
  | decided i ok hv author rep req d r s' ha hr hid hd hrep hauth hns hnew hen hf =>
    exact (hfin _ (by simp [notifiedTags]) hf).elim
  | removed req s' ha hf =>
    refine (hfin _ ?_ hf).elim
    cases req.request <;> simp [notifiedTags, failObs]
  | reset op req' q a s' ha hr ha' hf hop' hq hl hn =>
    rcases hop' with ⟨v, i, rfl⟩ | ⟨_, _, _, _, _, _, d1, d2, h1, h2, h3⟩
    · exact absurd rfl (hop v i)
    · rw [hact] at ha
      simp only [Option.some.injEq] at ha
      subst ha
      rw [hd] at h1
      simp only [Option.some.injEq] at h1
      subst h1
      simp only [attempt, ha', hact, hd, h2, Option.map_some, Option.some.injEq, Prod.mk.injEq] at hsame
      omega

/-- **C22, over a history.** Once a non-zero hash is recorded it stays the recorded hash for as long as the attempt
lasts: through any further calls by anyone during which nothing is answered, the attempt stays the same and no
administrator re-sets the bridge instance. -/
theorem C22_hash_final_for_attempt (s : State W) (req : Active) (d : TxData)
    (hact : s.active = some req) (hd : req.txData = some d) (hh : d.ethTxHash ≠ 0) (hreplay : d.replay < 65535)
    (steps : List (Step W)) (hop : ∀ op ∈ steps, ∀ v i, op ≠ .setInstance v i)
    (hopen : ∀ k, notifiedTags (run env s (steps.take k)).log = notifiedTags s.log)
    (hsame : ∀ k, attempt (run env s (steps.take k)) = attempt s) :
    recordedHash (run env s steps) = some d.ethTxHash := by
  induction steps using List.reverseRecOn with
  | nil => simp [run, recordedHash, hact, hd]
  | append_singleton steps op ih =>
    have htk : ∀ k, k ≤ steps.length → (steps ++ [op]).take k = steps.take k :=
      fun k hk => List.take_append_of_le_length hk
    have ih' := ih (fun o ho => hop o (by simp [ho]))
      (fun k => by
        rcases Nat.le_total k steps.length with h | h
        · rw [← htk k h]; exact hopen k
        · rw [List.take_of_length_le h, ← List.take_length (l := steps), ← htk _ (Nat.le_refl _)]; exact hopen _)
      (fun k => by
        rcases Nat.le_total k steps.length with h | h
        · rw [← htk k h]; exact hsame k
        · rw [List.take_of_length_le h, ← List.take_length (l := steps), ← htk _ (Nat.le_refl _)]; exact hsame _)
    have a0 : attempt (run env s steps) = attempt s := by
      have := hsame steps.length; rwa [htk _ (Nat.le_refl _), List.take_length] at this
    have a1 : attempt (step env (run env s steps) op) = attempt s := by
      have := hsame (steps.length + 1); rwa [List.take_of_length_le (by simp), run_snoc] at this
    have n0 : notifiedTags (run env s steps).log = notifiedTags s.log := by
      have := hopen steps.length; rwa [htk _ (Nat.le_refl _), List.take_length] at this
    have n1 : notifiedTags (step env (run env s steps) op).log = notifiedTags s.log := by
      have := hopen (steps.length + 1); rwa [List.take_of_length_le (by simp), run_snoc] at this
    rw [run_snoc, ← ih']
    refine Classical.byContradiction (fun hne => ?_)
    generalize run env s steps = t at *
    simp only [recordedHash] at ih'
    cases hta : t.active with
    | none => simp [hta] at ih'
    | some req' =>
      cases htd : req'.txData with
      | none => simp [hta, htd] at ih'
      | some d' =>
        simp only [hta, htd, Option.bind_some, Option.map_some, Option.some.injEq] at ih'
        have hrep : d'.replay = d.replay := by
          simp [attempt, hta, htd, hact, hd] at a0
          exact a0.2.2.2
        obtain ⟨_, _, _, h0, _⟩ := C22_hash_write_once env t op req' d' hta htd
          (hop op (by simp)) (by rw [n1, n0]) (by rw [a1, a0]) (by omega) hne
        omega

/-- Non-vacuity: the assigned sender 2 records a hash; a second call by 2 and calls by others change nothing, while
author 3's corroboration vote of another kind of step leaves it in place. -/
example :
    recordedHash (run exEnv ex0 (exSteps.take 4)) = some 0 ∧ recordedHash (run exEnv ex0 (exSteps.take 5)) = some 1234 ∧
    recordedHash (run exEnv ex0 (exSteps.take 5 ++ [.ethTxHash 5 77 2, .ethTxHash 5 78 1, .confirm 5 31 3])) =
      some 1234 := by decide +kernel

/-! ### C21 -/

/-- During `steps` author `x`, an author at that time, confirmed request `id` with signature `sig`, which recovers to
`x`'s key over message hash `h`. -/
def ConfirmedBy (s0 : State W) (steps : List (Step W)) (id h sig x : Nat) : Prop :=
  ∃ pre post, steps = pre ++ .confirm id sig x :: post ∧
    Avn.isValidator (run env s0 pre).avn.validators x = true ∧ env.signer h sig = some x

theorem ConfirmedBy.mono {s0 : State W} {steps : List (Step W)} {id h sig x : Nat} (op : Step W)
    (hc : ConfirmedBy env s0 steps id h sig x) : ConfirmedBy env s0 (steps ++ [op]) id h sig x := by
  obtain ⟨pre, post, rfl, h1, h2⟩ := hc
  exact ⟨pre, post ++ [op], by simp, h1, h2⟩

/-- What is known about the active request when it is a lower proof. -/
def ConfInv (s0 : State W) (steps : List (Step W)) : Prop :=
  ∀ req r, (run env s0 steps).active = some req → req.request = .lower r →
    req.confirmations.Nodup ∧ (∃ i, env.lowerHash r.params i = some req.msgHash) ∧
    ∀ sig ∈ req.confirmations, ∃ x, ConfirmedBy env s0 steps r.lowerId req.msgHash sig x

theorem verify_iff {s : State W} {h x sig : Nat} (hv : verifySignature env s h x sig = true) :
    env.signer h sig = some x := by
  simp [verifySignature] at hv; exact hv.2

theorem run_confInv (s0 : State W) (h0 : s0.active = none) (steps : List (Step W)) : ConfInv env s0 steps := by
  induction steps using List.reverseRecOn with
  | nil => intro req r ha; simp [run, h0] at ha
  | append_singleton steps op ih =>
    have hv := step_view env (run env s0 steps) op
    rw [← run_snoc env s0 steps op] at hv
    unfold ConfInv at ih ⊢
    generalize hs : run env s0 steps = s at hv ih
    generalize hs' : run env s0 (steps ++ [op]) = s' at hv
    have keep : ∀ req r, s.active = some req → req.request = .lower r →
        req.confirmations.Nodup ∧ (∃ i, env.lowerHash r.params i = some req.msgHash) ∧
        ∀ sig ∈ req.confirmations, ∃ x, ConfirmedBy env s0 (steps ++ [op]) r.lowerId req.msgHash sig x := by
      intro req r ha hr
      obtain ⟨i1, i2, i3⟩ := ih req r ha hr
      refine ⟨i1, i2, fun sig hsig => ?_⟩
      obtain ⟨x, hx⟩ := i3 sig hsig
      exact ⟨x, hx.mono env op⟩
    have hfresh : ∀ req r, Fresh env req.request req → req.request = .lower r →
        req.confirmations.Nodup ∧ (∃ i, env.lowerHash r.params i = some req.msgHash) ∧
        ∀ sig ∈ req.confirmations, ∃ x, ConfirmedBy env s0 (steps ++ [op]) r.lowerId req.msgHash sig x := by
      rintro req r ⟨_, f2, _, _, f5, _⟩ hr
      rw [f2]
      exact ⟨by simp, f5 r hr, by simp⟩
    cases hv with
    | quiet op s' ha hq hl hn => intro req r hreq hr; rw [ha] at hreq; exact keep req r hreq hr
    | queued op q s' ha hlen ha' hq hl hn => intro req r hreq hr; rw [ha'] at hreq; exact keep req r hreq hr
    | activated op q a s' ha ha' hf hq hl hn =>
      intro req r hreq hr
      rw [ha'] at hreq; simp only [Option.some.injEq] at hreq; subst hreq
      exact hfresh _ r (by rw [hf.1]; exact hf) hr
    | confirmed id sig author req ha hid hauth hver hnew =>
      intro req' r hreq hr
      simp only [Option.some.injEq] at hreq
      subst hreq
      have hr' : req.request = .lower r := hr
      obtain ⟨k1, k2, k3⟩ := keep req r ha hr'
      have hidr : r.lowerId = id := by rw [hr'] at hid; simpa [Request.idMatches] using hid
      refine ⟨?_, k2, ?_⟩
      · rw [List.nodup_append]
        refine ⟨k1, by simp, ?_⟩
        intro x hx y hy hxy
        have : y = sig := by simpa using hy
        subst this; subst hxy; exact hnew hx
      · intro x hx
        rcases List.mem_append.1 hx with hx | hx
        · exact k3 x hx
        · have : x = sig := by simpa using hx
          subst this
          exact ⟨author, steps, [], by rw [hidr], by rw [hs]; exact hauth, verify_iff env hver⟩
    | lowerDone id sig author req q s' ha hr hid hauth hver hnew hen hfin =>
      obtain ⟨_, _, _, _, _, hf⟩ := hfin
      intro req r hreq hr
      exact hfresh req r (hf req hreq) hr
    | hashed id h author req d ha hid hd h0 hsend =>
      intro req' r hreq hr
      simp only [Option.some.injEq] at hreq
      subst hreq
      exact keep req r ha hr
    | corroborated id ok hv author rep req d ha hid hd hrep hauth hns hnew =>
      intro req' r hreq hr
      simp only [Option.some.injEq] at hreq
      subst hreq
      exact keep req r ha hr
    | decided id ok hv author rep req d q s' ha hr hid hd hrep hauth hns hnew hen hfin =>
      obtain ⟨_, _, _, _, _, hf⟩ := hfin
      intro req r hreq hr
      exact hfresh req r (hf req hreq) hr
    | removed req s' ha hfin =>
      obtain ⟨_, _, _, _, _, hf⟩ := hfin
      intro req r hreq hr
      exact hfresh req r (hf req hreq) hr
    | reset op req q a s' ha hr ha' hf hop hq hl hn =>
      intro req r hreq hr
      rw [ha'] at hreq; simp only [Option.some.injEq] at hreq; subst hreq
      exact hfresh _ r (by rw [hf.1]; exact hf) hr

/-- **C21 (partial).** Suppose a step of a history hands a lower proof over as ready. Then the step is a confirmation by
a current author; the proof belongs to the active lower request, with its parameters; it carries at least a
supermajority (two thirds of the current number of authors, rounded down) of pairwise different signatures; and each of
them was submitted for this request by an account that was an author at that time, and recovers to that account's key
over the message hash of exactly these parameters (under some bridge instance). Missing from the full claim:
that these are *different authors*; see `C21_full_claim_false` and `C21_distinct_if_signatures_unique`. -/
theorem C21_ready_proof_partial (s0 : State W) (h0 : s0.active = none) (steps : List (Step W)) (op : Step W)
    (id params : Nat) (c : List UInt8) (sigs : List Nat) (more : List Obs)
    (hlog : (run env s0 (steps ++ [op])).log = (run env s0 steps).log ++ more)
    (hmem : Obs.lowerResult id c (some (params, sigs)) ∈ more) :
    (∃ sig x, op = .confirm id sig x) ∧
    (∃ req, (run env s0 steps).active = some req ∧ req.request = .lower ⟨id, params, c⟩) ∧
    sigs.Nodup ∧ Avn.requiredForSupermajority (run env s0 steps).avn.validators.length ≤ sigs.length ∧
    ∃ h i, env.lowerHash params i = some h ∧
      ∀ sig ∈ sigs, ∃ x, ConfirmedBy env s0 (steps ++ [op]) id h sig x := by
  have hinv := run_confInv env s0 h0 steps
  unfold ConfInv at hinv
  have hv := step_view env (run env s0 steps) op
  rw [← run_snoc env s0 steps op] at hv
  generalize hs : run env s0 steps = s at hv hinv hlog
  generalize hs' : run env s0 (steps ++ [op]) = s' at hv hlog
  have hdr : ∀ dropped : List Request, Obs.lowerResult id c (some (params, sigs)) ∉ dropped.map failObs := by
    intro dropped h
    obtain ⟨q, _, hq⟩ := List.mem_map.1 h
    cases q <;> simp [failObs] at hq
  have hfin : ∀ o, Finished env s o s' → Obs.lowerResult id c (some (params, sigs)) = o := by
    intro o hf
    obtain ⟨dropped, hl, _⟩ := hf
    rw [hl, List.append_assoc] at hlog
    rw [← List.append_cancel_left hlog] at hmem
    simp only [List.singleton_append, List.mem_cons] at hmem
    rcases hmem with h | h
    · exact h
    · exact absurd h (hdr dropped)
  have hnil : s'.log = s.log → False := by
    intro h
    rw [h] at hlog
    have : more = [] := by simpa using hlog
    simp [this] at hmem
  cases hv with
  | quiet op s' ha hq hl hn => exact (hnil hl).elim
  | queued op q s' ha hlen ha' hq hl hn =>
    rw [hl] at hlog; rw [← List.append_cancel_left hlog] at hmem; simp at hmem
  | activated op q a s' ha ha' hf hq hl hn =>
    rw [hl] at hlog; rw [← List.append_cancel_left hlog] at hmem; simp at hmem
  | confirmed id sig author req ha => exact (hnil rfl).elim
  | lowerDone id' sig author req r s' ha hr hid hauth hver hnew hen hf =>
    have ho := hfin _ hf
    simp only [Obs.lowerResult.injEq, Option.some.injEq, Prod.mk.injEq] at ho
    obtain ⟨e1, e2, e3, e4⟩ := ho
    obtain ⟨k1, ⟨i, k2⟩, k3⟩ := hinv req r ha hr
    subst e1; subst e2; subst e3; subst e4
    refine ⟨⟨sig, author, by rw [hid]⟩, ⟨req, ha, hr⟩, ?_, hen, req.msgHash, i, k2, ?_⟩
    · rw [List.nodup_append]
      refine ⟨k1, by simp, ?_⟩
      intro x hx y hy hxy
      have : y = sig := by simpa using hy
      subst this; subst hxy; exact hnew hx
    · intro x hx
      rcases List.mem_append.1 hx with hx | hx
      · obtain ⟨y, hy⟩ := k3 x hx
        exact ⟨y, hy.mono env _⟩
      · have : x = sig := by simpa using hx
        subst this
        exact ⟨author, steps, [], by rw [hid], by rw [hs]; exact hauth, verify_iff env hver⟩
  | hashed id h author req d ha => exact (hnil rfl).elim
  | corroborated i ok hv author rep req d ha => exact (hnil rfl).elim
  | decided i ok hv author rep req d r s' ha hr hid hd hrep hauth hns hnew hen hf =>
    have := hfin _ hf; simp at this
  | removed req s' ha hf =>
    have := hfin _ hf
    cases hrq : req.request <;> simp [hrq, failObs] at this
  | reset op req q a s' ha hr ha' hf hop hq hl hn => exact (hnil hl).elim

/-- **C21 under an extra assumption (partial).** If no author has two different valid signatures over the same hash
(ECDSA does not guarantee this), the signatures of a ready proof come from at least a supermajority of different authors. -/
theorem C21_distinct_if_signatures_unique_partial (s0 : State W) (h0 : s0.active = none) (steps : List (Step W))
    (op : Step W) (id params : Nat) (c : List UInt8) (sigs : List Nat) (more : List Obs)
    (hlog : (run env s0 (steps ++ [op])).log = (run env s0 steps).log ++ more)
    (hmem : Obs.lowerResult id c (some (params, sigs)) ∈ more)
    (huniq : ∀ h sig sig' x, env.signer h sig = some x → env.signer h sig' = some x → sig = sig') :
    ∃ (h : Nat) (who : List Nat), who.Nodup ∧
      Avn.requiredForSupermajority (run env s0 steps).avn.validators.length ≤ who.length ∧
      ∀ x ∈ who, ∃ sig ∈ sigs, ConfirmedBy env s0 (steps ++ [op]) id h sig x := by
  obtain ⟨_, _, h1, h2, h, i, _, h3⟩ := C21_ready_proof_partial env s0 h0 steps op id params c sigs more hlog hmem
  refine ⟨h, sigs.filterMap (env.signer h), ?_, ?_, ?_⟩
  · refine h1.filterMap ?_
    intro a b c hc hd
    exact huniq h a b c hc hd
  · have : (sigs.filterMap (env.signer h)).length = sigs.length := by
      clear h1 h2 hmem
      induction sigs with
      | nil => rfl
      | cons a l ih =>
        obtain ⟨x, _, _, _, _, hx⟩ := h3 a (by simp)
        rw [List.filterMap_cons_some hx]
        simp [ih (fun b hb => h3 b (by simp [hb]))]
    rw [this]; exact h2
  · intro x hx
    obtain ⟨sig, hsig, he⟩ := List.mem_filterMap.1 hx
    obtain ⟨y, hy⟩ := h3 sig hsig
    have : x = y := by
      obtain ⟨_, _, _, _, hy2⟩ := hy
      rw [he] at hy2; simpa using hy2
    subst this
    exact ⟨sig, hsig, hy⟩

/-- **C21, the full claim is false of the code.** Author 1 alone, with two different signatures over the same hash,
completes a lower proof that needs two confirmations among four authors (signature `10 * a + k` recovers to `a`):
duplicates are detected by signature bytes, not by author. -/
theorem C21_full_claim_false :
    let s := run exEnv ex0 [.lowerProof 9 3 [3], .confirm 9 11 1, .confirm 9 12 1]
    s.log = [.accepted (.lower ⟨9, 3, [3]⟩), .lowerResult 9 [3] (some (3, [11, 12]))] ∧
      Avn.requiredForSupermajority ex0.avn.validators.length = 2 ∧
      exEnv.signer 7 11 = some 1 ∧ exEnv.signer 7 12 = some 1 := by decide +kernel

/-- Non-vacuity of the positive theorems: two authors complete the proof, one does not. -/
example :
    (run exEnv ex0 [.lowerProof 9 3 [3], .confirm 9 11 1]).log = [.accepted (.lower ⟨9, 3, [3]⟩)] ∧
    (run exEnv ex0 [.lowerProof 9 3 [3], .confirm 9 11 1, .confirm 9 25 2]).log =
      [.accepted (.lower ⟨9, 3, [3]⟩), .lowerResult 9 [3] (some (3, [11, 25]))] := by decide +kernel

end Verif.BridgeTx
