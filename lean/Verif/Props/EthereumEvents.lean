import Verif.Lemmas.EthereumEvents2

/-!
# C36–C39: the legacy Ethereum event pipeline

A history starts at genesis (`start`) and consists of arbitrary steps. The log is the sequence of everything the pallet
announced, stamped with block numbers. `openChallengers log id` (defined in `Lemmas/EthereumEvents2.lean`) reads off
the log who challenged `id` since it was last processed without a successful challenge.
-/

namespace Verif.EthEvents

open Verif Verif.Events

variable {W : Type}

/-- A genesis configuration: lift transactions are distinct, the quorum factor is not zero. -/
structure Config (W : Type) where
  quorumFactor : Nat
  period : Nat
  lifts : List Nat
  processed : Nat → Option Bool
  validators : List Avn.Validator
  filter : List ValidEvent
  world : W
  distinct : lifts.Nodup
  factor : quorumFactor ≠ 0

/-- State of a configuration after a history. -/
def Config.after (c : Config W) (handler : EthEvent → W → W × Bool) (steps : List (Step W)) : State W :=
  run handler (genesis c.quorumFactor c.period c.lifts c.processed c.validators c.filter c.world) steps

/-- All invariants together. -/
structure Inv (s : State W) : Prop where
  nodup : (queued s).Nodup
  known : Known s
  once : Once s
  traced : Traced s
  chal : Chal s
  distinct : Distinct s
  first : FirstRound s

theorem inv_view {x : Step W} {handler : EthEvent → W → W × Bool} {s s' : State W} (h : Inv s) (v : View handler s x s') : Inv s' :=
  ⟨queued_nodup_view h.nodup v, known_view h.known v, once_view h.known h.once v, traced_view h.traced v,
   chal_view h.chal v, distinct_view h.distinct v, firstRound_view h.nodup h.first v⟩

theorem genesis_inv (c : Config W) :
    Inv (genesis c.quorumFactor c.period c.lifts c.processed c.validators c.filter c.world) := by
  refine ⟨?_, ?_, ?_, ?_, ?_, ?_, ?_⟩
  · simp only [queued, genesis, List.map_nil, List.append_nil, genesisQueue_ids]
    exact c.distinct.map (fun a b h => by simpa using h)
  · intro id hid
    simp only [queued, genesis, List.map_nil, List.append_nil, genesisQueue_ids] at hid
    obtain ⟨h, _, rfl⟩ := List.mem_map.1 hid
    exact tryFrom_signature .lifted
  · intro h; simp [genesis]
  · intro p hp; simp [genesis] at hp
  · intro id; simp [genesis, openChallengers]
  · intro id; simp [genesis]
  · intro id _; simp [genesis]

theorem Config.inv (c : Config W) (handler : EthEvent → W → W × Bool) (steps : List (Step W)) :
    Inv (c.after handler steps) :=
  run_invariant (fun _ _ _ h v => inv_view h v) (genesis_inv c) steps

/-- Log entries of `settle`. -/
def settleNew (s : State W) (p : Pending) (id : EventId) (named : Nat) : List Obs :=
  [.processed id named ((s.processed id.txHash).isNone && !challengeSuccessful s p.check)] ++
    if challengeSuccessful s p.check = true then [.challengeSucceeded id p.check.result, .offence [p.check.checkedBy]]
    else if s.challenges id = [] then [] else [.offence (s.challenges id)]

theorem settle_no_handled (s : State W) (p : Pending) (id : EventId) (named : Nat) (e : EthEvent) :
    Obs.handled e ∉ settleNew s p id named := by
  unfold settleNew
  by_cases h1 : challengeSuccessful s p.check = true
  · rw [if_pos h1]; simp
  · rw [if_neg h1]
    by_cases h2 : s.challenges id = []
    · rw [if_pos h2]; simp
    · rw [if_neg h2]; simp

theorem settle_no_validated (s : State W) (p : Pending) (id : EventId) (named : Nat) (e : EthEvent) (r : CheckResult)
    (a b c d : Nat) : Obs.validated e r a b c d ∉ settleNew s p id named := by
  unfold settleNew
  by_cases h1 : challengeSuccessful s p.check = true
  · rw [if_pos h1]; simp
  · rw [if_neg h1]
    by_cases h2 : s.challenges id = []
    · rw [if_pos h2]; simp
    · rw [if_neg h2]; simp

theorem settle_no_added (s : State W) (p : Pending) (id : EventId) (named : Nat) (i : EventId) (k a : Nat) :
    Obs.added i k a ∉ settleNew s p id named := by
  unfold settleNew
  by_cases h1 : challengeSuccessful s p.check = true
  · rw [if_pos h1]; simp
  · rw [if_neg h1]
    by_cases h2 : s.challenges id = []
    · rw [if_pos h2]; simp
    · rw [if_neg h2]; simp

theorem settle_no_challenged (s : State W) (p : Pending) (id : EventId) (named : Nat) (i : EventId) (a : Nat) :
    Obs.challenged i a ∉ settleNew s p id named := by
  unfold settleNew
  by_cases h1 : challengeSuccessful s p.check = true
  · rw [if_pos h1]; simp
  · rw [if_neg h1]
    by_cases h2 : s.challenges id = []
    · rw [if_pos h2]; simp
    · rw [if_neg h2]; simp

theorem refused_log (s : State W) (p : Pending) (id : EventId) (named : Nat) :
    (emit (settle s p id named) [.rejected id p.check.result (challengeSuccessful s p.check)]).log =
      s.log ++ ((settleNew s p id named).map (fun e => (s.block, e)) ++
        [Obs.rejected id p.check.result (challengeSuccessful s p.check)].map (fun e => (s.block, e))) := by
  unfold settle emit settleNew; dsimp only; rw [List.append_assoc]

theorem delivered_log (handler : EthEvent → W → W × Bool) (s : State W) (p : Pending) (id : EventId) (named : Nat) :
    (deliver handler (settle s p id named) p id).log =
      s.log ++ ((settleNew s p id named).map (fun e => (s.block, e)) ++
        [Obs.handled p.check.event, if (handler p.check.event s.world).2 = true then .accepted id
          else .rejected id p.check.result false].map (fun e => (s.block, e))) := by
  unfold deliver settle emit settleNew; dsimp only; rw [List.append_assoc]

/-- Where a log entry of a history comes from: the step that wrote it. -/
theorem log_origin (handler : EthEvent → W → W × Bool) (s : State W) (steps : List (Step W)) (x : Nat × Obs)
    (h : x ∈ (run handler s steps).log) :
    x ∈ s.log ∨ ∃ pre t post, steps = pre ++ t :: post ∧ ∃ new, x ∈ new ∧
      (step handler (run handler s pre) t).log = (run handler s pre).log ++ new := by
  induction steps using List.reverseRecOn with
  | nil => exact .inl h
  | append_singleton l t ih =>
    rw [run_snoc] at h
    have hgrow : ∃ new, (step handler (run handler s l) t).log = (run handler s l).log ++ new := by
      have v := step_view (handler := handler) (run handler s l) t
      generalize step handler (run handler s l) t = s' at v
      generalize run handler s l = s0 at v
      cases v with
      | frame s' hu hp hpr hc hq hi hf hl => exact ⟨[], by simp [hl]⟩
      | period p hp => exact ⟨_, rfl⟩
      | bridge tx acc hne => exact ⟨[], by simp⟩
      | added ty tx a nonces hf hpr hx hlen h0 => exact ⟨_, rfl⟩
      | submitted c counter hv hex hb => exact ⟨_, rfl⟩
      | delivered id named p hp hb hr hc hn hv =>
        exact ⟨_, delivered_log handler s0 p id named⟩
      | refused id named p hp hb hr hv =>
        exact ⟨_, refused_log s0 p id named⟩
      | challenged id by_ counter p hv hp hself hdup => exact ⟨_, rfl⟩
    obtain ⟨new, hnew⟩ := hgrow
    rw [hnew, List.mem_append] at h
    rcases h with h | h
    · rcases ih h with h | ⟨pre, t', post, rfl, r⟩
      · exact .inl h
      · exact .inr ⟨pre, t', post ++ [t], by simp, r⟩
    · exact .inr ⟨l, t, [], by simp, new, h, hnew⟩

/-! ## C36 -/

/-- The same for one step from any state satisfying the pallet's invariants. -/
theorem effect_step {handler : EthEvent → W → W × Bool} {s : State W} (inv : Inv s) (t : Step W) (new : List (Nat × Obs))
    (hnew : (step handler s t).log = s.log ++ new) (now : Nat) (e : EthEvent) (hx : (now, Obs.handled e) ∈ new) :
    (∃ counter v sig, t = .process e.id counter v sig ∧ Avn.isValidator s.validators v = true) ∧
      now = s.block ∧ s.processed e.id.txHash = none ∧
      ∃ b checker counter period minVotes,
        (b, Obs.validated e .ok checker counter period minVotes) ∈ s.log ∧
        b + period < now ∧
        min (openChallengers s.log e.id).length 50 ≤ max minVotes (s.validators.length / s.quorumFactor) := by
  have nolog : ∀ s' : State W, s'.log = s.log ++ new → ∀ es : List (Nat × Obs), s'.log = s.log ++ es → new = es := by
    intro s' h1 es h2
    rw [h1] at h2
    exact List.append_cancel_left h2
  have v := step_view (handler := handler) s t
  generalize step handler s t = s' at v hnew
  cases v with
  | frame s' hu hp hpr hc hq hi hf hl => rw [nolog _ hnew [] (by simp [hl])] at hx; simp at hx
  | period p hp => rw [nolog _ hnew _ rfl] at hx; simp at hx
  | bridge tx acc hne => rw [nolog _ hnew [] (by simp)] at hx; simp at hx
  | added ty tx a nonces hf hpr hxx hlen h0 => rw [nolog _ hnew _ rfl] at hx; simp at hx
  | submitted c counter hv hex hb hs => rw [nolog _ hnew _ rfl] at hx; simp at hx
  | challenged id by_ counter p hv hp hself hdup => rw [nolog _ hnew _ rfl] at hx; simp at hx
  | refused id named p hp hb hr hv =>
    rw [nolog _ hnew _ (refused_log s p id named)] at hx
    simp only [List.mem_append, List.mem_map] at hx
    rcases hx with ⟨o, ho, e1⟩ | ⟨o, ho, e1⟩
    · exact absurd (by simpa using (Prod.mk.inj e1).2 ▸ ho) (settle_no_handled s p id named e)
    · simp only [List.mem_singleton] at ho
      subst ho; simp at e1
  | delivered id named p hp hb hr hc hn hv hs =>
    rw [nolog _ hnew _ (delivered_log handler s p id named)] at hx
    simp only [List.mem_append, List.mem_map] at hx
    obtain ⟨hmem, hid⟩ := lastPending_mem hp
    have hee : e = p.check.event ∧ now = s.block := by
      rcases hx with ⟨o, ho, e1⟩ | ⟨o, ho, e1⟩
      · exact absurd (by simpa using (Prod.mk.inj e1).2 ▸ ho) (settle_no_handled s p id named e)
      · simp only [List.mem_cons, List.not_mem_nil, or_false] at ho
        rcases ho with ho | ho
        · subst ho; simp at e1; exact ⟨e1.2.symm, e1.1.symm⟩
        · split at ho <;> subst ho <;> simp at e1
    obtain ⟨rfl, rfl⟩ := hee
    have hid' : p.check.event.id = id := hid
    obtain ⟨k, g, rfl⟩ := hs
    refine ⟨⟨k, named, g, by rw [hid'], hv⟩, rfl, by rw [hid']; exact hn, ?_⟩
    obtain ⟨per, hl, hrd⟩ := inv.traced p hmem
    refine ⟨p.block, p.check.checkedBy, p.counter, per, p.check.minVotes, by rw [← hr]; exact hl, by omega, ?_⟩
    have hcs := hc
    unfold challengeSuccessful at hcs
    rw [decide_eq_false_iff_not, inv.chal, List.length_take] at hcs
    unfold maxChallenges at hcs
    omega

/-- Whenever a step hands an event to the rest of the runtime (so that it can have an effect), then before that step:
some validator's check result `Ok` for exactly this event was recorded in block `b`, strictly more than the challenge
period then in force has passed, the transaction was not processed yet, and the number of open challengers (at most
the list bound of 50 are counted) does not exceed the threshold. The step is a `process` transaction of a current
validator. -/
theorem C36_effect_only_after_window (c : Config W) (handler : EthEvent → W → W × Bool) (steps : List (Step W))
    (now : Nat) (e : EthEvent) (h : (now, Obs.handled e) ∈ (c.after handler steps).log) :
    ∃ pre t post, steps = pre ++ t :: post ∧
      (∃ counter v sig, t = .process e.id counter v sig ∧ Avn.isValidator (c.after handler pre).validators v = true) ∧
      now = (c.after handler pre).block ∧
      (c.after handler pre).processed e.id.txHash = none ∧
      ∃ b checker counter period minVotes,
        (b, Obs.validated e .ok checker counter period minVotes) ∈ (c.after handler pre).log ∧
        b + period < now ∧
        min (openChallengers (c.after handler pre).log e.id).length 50 ≤
          max minVotes ((c.after handler pre).validators.length / (c.after handler pre).quorumFactor) := by
  rcases log_origin handler _ steps _ h with h | ⟨pre, t, post, hsteps, new, hx, hnew⟩
  · simp [genesis] at h
  refine ⟨pre, t, post, hsteps, ?_⟩
  exact effect_step (c.inv handler pre) t new hnew now e hx

/-- A check result enters the log only through a `submit` transaction for an event waiting to be checked, by a current
validator, who is the primary of the block the result names. -/
theorem C36_checks_come_from_validators (c : Config W) (handler : EthEvent → W → W × Bool) (steps : List (Step W))
    (b : Nat) (e : EthEvent) (r : CheckResult) (checker counter period minVotes : Nat)
    (h : (b, Obs.validated e r checker counter period minVotes) ∈ (c.after handler steps).log) :
    ∃ pre t post, steps = pre ++ t :: post ∧
      b = (c.after handler pre).block ∧ period = (c.after handler pre).period ∧
      Avn.isValidator (c.after handler pre).validators checker = true ∧
      minVotes = (c.after handler pre).validators.length / (c.after handler pre).quorumFactor ∧
      (∃ u ∈ (c.after handler pre).unchecked, u.id = e.id ∧ u.counter = counter) ∧
      ∃ chk dataOk, t = .submit chk counter checker dataOk true ∧ dataOk = true ∧ chk.event = e ∧ chk.result = r ∧
        Avn.primaryForBlock (c.after handler pre).validators chk.checkedAt = .ok checker := by
  rcases log_origin handler _ steps _ h with h | ⟨pre, t, post, hsteps, new, hx, hnew⟩
  · simp [genesis] at h
  refine ⟨pre, t, post, hsteps, ?_⟩
  change (step handler (c.after handler pre) t).log = (c.after handler pre).log ++ new at hnew
  generalize c.after handler pre = s at hnew
  have nolog : ∀ s' : State W, s'.log = s.log ++ new → ∀ es : List (Nat × Obs), s'.log = s.log ++ es → new = es := by
    intro s' h1 es h2
    rw [h1] at h2
    exact List.append_cancel_left h2
  have v := step_view (handler := handler) s t
  generalize step handler s t = s' at v hnew
  cases v with
  | frame s' hu hp hpr hc hq hi hf hl => rw [nolog _ hnew [] (by simp [hl])] at hx; simp at hx
  | period p hp => rw [nolog _ hnew _ rfl] at hx; simp at hx
  | bridge tx acc hne => rw [nolog _ hnew [] (by simp)] at hx; simp at hx
  | added ty tx a nonces hf hpr hxx hlen h0 => rw [nolog _ hnew _ rfl] at hx; simp at hx
  | challenged id by_ counter p hv hp hself hdup => rw [nolog _ hnew _ rfl] at hx; simp at hx
  | refused id named p hp hb hr hv =>
    rw [nolog _ hnew _ (refused_log s p id named)] at hx
    simp only [List.mem_append, List.mem_map] at hx
    rcases hx with ⟨o, ho, e1⟩ | ⟨o, ho, e1⟩
    · exact absurd ((Prod.mk.inj e1).2 ▸ ho) (settle_no_validated s p id named e r checker counter period minVotes)
    · simp only [List.mem_singleton] at ho
      subst ho; simp at e1
  | delivered id named p hp hb hr hc hn hv hs =>
    rw [nolog _ hnew _ (delivered_log handler s p id named)] at hx
    simp only [List.mem_append, List.mem_map] at hx
    rcases hx with ⟨o, ho, e1⟩ | ⟨o, ho, e1⟩
    · exact absurd ((Prod.mk.inj e1).2 ▸ ho) (settle_no_validated s p id named e r checker counter period minVotes)
    · simp only [List.mem_cons, List.not_mem_nil, or_false] at ho
      rcases ho with ho | ho
      · subst ho; simp at e1
      · split at ho <;> subst ho <;> simp at e1
  | submitted chk k hv hex hb hs =>
    rw [nolog _ hnew _ rfl] at hx
    simp only [List.map_cons, List.map_nil, List.mem_singleton, Prod.mk.injEq, Obs.validated.injEq] at hx
    obtain ⟨rfl, rfl, rfl, rfl, rfl, rfl, rfl⟩ := hx
    obtain ⟨n, d, g, rfl, hval⟩ := hs
    simp only [validSubmit, Bool.and_eq_true, beq_iff_eq] at hval
    obtain ⟨⟨⟨⟨⟨hq, hd⟩, hpr⟩, hn⟩, hv'⟩, hg⟩ := hval
    refine ⟨rfl, rfl, hv, rfl, ?_, chk, d, ?_, hd, rfl, rfl, ?_⟩
    · obtain ⟨u, hu, hqu⟩ := List.any_eq_true.1 hq
      simp only [Bool.and_eq_true, beq_iff_eq] at hqu
      exact ⟨u, hu, hqu⟩
    · rw [hn, hg]
    · cases hprim : Avn.primaryForBlock s.validators chk.checkedAt with
      | error e => rw [hprim] at hpr; simp at hpr
      | ok w => rw [hprim] at hpr; simp at hpr; rw [hpr]

/-! ## C37 -/

/-- At any time an Ethereum event is at most once in the two queues together. -/
theorem C37_in_at_most_one_queue (c : Config W) (handler : EthEvent → W → W × Bool) (steps : List (Step W)) (id : EventId) :
    (c.after handler steps).unchecked.countP (fun u => u.id == id) +
      (c.after handler steps).pending.countP (fun p => p.check.event.id == id) ≤ 1 := by
  have h := (c.inv handler steps).nodup
  generalize c.after handler steps = s at h
  have := List.nodup_iff_count_le_one.1 h id
  unfold queued at this
  rw [List.count_append] at this
  simp only [List.count, List.countP_map] at this
  exact this

/-- Whatever the schedule, the events of one Ethereum transaction are handed to the rest of the runtime at most once by
this pallet. -/
theorem C37_applied_at_most_once (c : Config W) (handler : EthEvent → W → W × Bool) (steps : List (Step W)) (tx : Nat) :
    (c.after handler steps).log.countP (fun x => match x.2 with
      | .handled e => e.id.txHash == tx
      | _ => false) ≤ 1 := by
  have h := (c.inv handler steps).once tx
  have he : isHandled tx = (fun x : Nat × Obs => match x.2 with | .handled e => e.id.txHash == tx | _ => false) := by
    funext x
    rcases x with ⟨b, o⟩
    cases o <;> rfl
  rw [he] at h
  refine Nat.le_trans h ?_
  split <;> omega

/-- An event that was applied is recorded as processed. -/
theorem C37_applied_is_recorded (c : Config W) (handler : EthEvent → W → W × Bool) (steps : List (Step W))
    (b : Nat) (e : EthEvent) (h : (b, Obs.handled e) ∈ (c.after handler steps).log) :
    ((c.after handler steps).processed e.id.txHash).isSome = true := by
  have ho := (c.inv handler steps).once e.id.txHash
  by_contra hn
  rw [if_neg hn] at ho
  have : 0 < (c.after handler steps).log.countP (isHandled e.id.txHash) :=
    List.countP_pos_iff.2 ⟨_, h, by simp [isHandled]⟩
  omega

/-- A recorded transaction stays recorded. -/
theorem C37_processed_is_permanent (c : Config W) (handler : EthEvent → W → W × Bool) (steps more : List (Step W)) (tx : Nat)
    (h : ((c.after handler steps).processed tx).isSome = true) :
    ((c.after handler (steps ++ more)).processed tx).isSome = true := by
  unfold Config.after at h ⊢
  rw [run_append]
  refine run_invariant (P := fun s => (s.processed tx).isSome = true) ?_ h more
  intro s x s' hs v
  cases v with
  | frame s' hu hp hpr hc hq hi hf hl => rw [hpr]; exact hs
  | period p hp => exact hs
  | bridge t acc hne => dsimp only; rw [upd_apply]; split <;> simp [hs]
  | added ty t a nonces hf hpr hxx hlen h0 => exact hs
  | submitted chk k hv hex hb => exact hs
  | challenged id by_ counter p hv hp hself hdup => exact hs
  | refused id named p hp hb hr hv => exact settle_processed_some (named := named) hs
  | delivered id named p hp hb hr hc hn hv => exact settle_processed_some (named := named) hs

/-- An addition is accepted only for a transaction that is not processed and an event in neither queue: so a processed
transaction is never queued again. -/
theorem C37_only_new_events_are_added (c : Config W) (handler : EthEvent → W → W × Bool) (steps : List (Step W))
    (b : Nat) (id : EventId) (k a : Nat) (h : (b, Obs.added id k a) ∈ (c.after handler steps).log) :
    ∃ pre t post, steps = pre ++ t :: post ∧ (c.after handler pre).processed id.txHash = none ∧
      (∀ u ∈ (c.after handler pre).unchecked, u.id ≠ id) ∧ (∀ p ∈ (c.after handler pre).pending, p.check.event.id ≠ id) ∧
      (∃ ty ∈ (c.after handler pre).filter, id.signature = signature ty) ∧ id.txHash ≠ 0 := by
  rcases log_origin handler _ steps _ h with h | ⟨pre, t, post, hsteps, new, hx, hnew⟩
  · simp [genesis] at h
  refine ⟨pre, t, post, hsteps, ?_⟩
  change (step handler (c.after handler pre) t).log = (c.after handler pre).log ++ new at hnew
  generalize c.after handler pre = s at hnew
  have nolog : ∀ s' : State W, s'.log = s.log ++ new → ∀ es : List (Nat × Obs), s'.log = s.log ++ es → new = es := by
    intro s' h1 es h2
    rw [h1] at h2
    exact List.append_cancel_left h2
  have v := step_view (handler := handler) s t
  generalize step handler s t = s' at v hnew
  cases v with
  | frame s' hu hp hpr hc hq hi hf hl => rw [nolog _ hnew [] (by simp [hl])] at hx; simp at hx
  | period p hp => rw [nolog _ hnew _ rfl] at hx; simp at hx
  | bridge tx acc hne => rw [nolog _ hnew [] (by simp)] at hx; simp at hx
  | added ty tx a' nonces hf hpr hxx hlen h0 =>
    rw [nolog _ hnew _ rfl] at hx
    simp only [List.map_cons, List.map_nil, List.mem_singleton, Prod.mk.injEq, Obs.added.injEq] at hx
    obtain ⟨rfl, rfl, rfl, rfl⟩ := hx
    simp only [existsInSystem, Bool.or_eq_false_iff, Option.isSome_eq_false_iff] at hxx
    obtain ⟨⟨h1, h2⟩, h3⟩ := hxx
    refine ⟨by simpa using h1, fun u hu e => ?_, fun p hp e => ?_, ⟨ty, by simpa using hf, rfl⟩, h0⟩
    · have := List.any_eq_false.1 h2 u hu
      simp [e] at this
    · have := List.any_eq_false.1 h3 p hp
      simp [Pending.id, e] at this
  | challenged id by_ counter p hv hp hself hdup => rw [nolog _ hnew _ rfl] at hx; simp at hx
  | submitted chk k hv hex hb hs => rw [nolog _ hnew _ rfl] at hx; simp at hx
  | refused id' named p hp hb hr hv =>
    rw [nolog _ hnew _ (refused_log s p id' named)] at hx
    simp only [List.mem_append, List.mem_map] at hx
    rcases hx with ⟨o, ho, e1⟩ | ⟨o, ho, e1⟩
    · exact absurd ((Prod.mk.inj e1).2 ▸ ho) (settle_no_added s p id' named id k a)
    · simp only [List.mem_singleton] at ho
      subst ho; simp at e1
  | delivered id' named p hp hb hr hc hn hv hs =>
    rw [nolog _ hnew _ (delivered_log handler s p id' named)] at hx
    simp only [List.mem_append, List.mem_map] at hx
    rcases hx with ⟨o, ho, e1⟩ | ⟨o, ho, e1⟩
    · exact absurd ((Prod.mk.inj e1).2 ▸ ho) (settle_no_added s p id' named id k a)
    · simp only [List.mem_cons, List.not_mem_nil, or_false] at ho
      rcases ho with ho | ho
      · subst ho; simp at e1
      · split at ho <;> subst ho <;> simp at e1

theorem counters_run (c : Config W) (handler : EthEvent → W → W × Bool) (steps : List (Step W))
    (hb : c.lifts.length + steps.length < 2 ^ 64) :
    (c.after handler steps).ingress ≤ c.lifts.length + steps.length ∧
    (c.after handler steps).ingress = c.lifts.length + (addedCounters (c.after handler steps).log).length ∧
    addedCounters (c.after handler steps).log =
      List.range' (c.lifts.length + 1) (addedCounters (c.after handler steps).log).length ∧
    Counters (c.after handler steps) := by
  induction steps using List.reverseRecOn with
  | nil =>
    refine ⟨by simp [Config.after, run, genesis], by simp [Config.after, run, genesis, addedCounters],
      by simp [Config.after, run, genesis, addedCounters], ?_, ?_⟩
    · simp only [Config.after, run, List.foldl_nil, genesis, List.map_nil, List.append_nil, genesisQueue_counters]
      exact List.nodup_range'
    · intro k hk
      simp only [Config.after, run, List.foldl_nil, genesis, List.map_nil, List.append_nil, genesisQueue_counters,
        List.mem_range'_1] at hk ⊢
      omega
  | append_singleton l x ih =>
    have hb' : c.lifts.length + l.length < 2 ^ 64 := by simp at hb; omega
    obtain ⟨h1, h2, h3, h4⟩ := ih hb'
    have hlt : (c.after handler l).ingress + 1 < pow64 := by
      unfold pow64; simp only [List.length_append, List.length_singleton] at hb; omega
    have v := step_view (handler := handler) (c.after handler l) x
    have hs : c.after handler (l ++ [x]) = step handler (c.after handler l) x := run_snoc _ _ _
    rw [hs]
    obtain ⟨g1, g2, g3⟩ := counters_step (k0 := c.lifts.length) hlt ⟨h2, h3⟩ v
    refine ⟨?_, g2, g3, counters_view hlt h4 v⟩
    simp only [List.length_append, List.length_singleton]; omega

/-- Ingress counters are handed out consecutively, following the genesis ones, as long as fewer than `2 ^ 64` actions have
happened (the counter is an unchecked `u64`); so they are unique and strictly increasing. -/
theorem C37_counters_increase (c : Config W) (handler : EthEvent → W → W × Bool) (steps : List (Step W))
    (hb : c.lifts.length + steps.length < 2 ^ 64) :
    (addedCounters (c.after handler steps).log).Pairwise (· < ·) ∧
    ∀ k ∈ addedCounters (c.after handler steps).log, c.lifts.length < k := by
  obtain ⟨-, -, h, -⟩ := counters_run c handler steps hb
  rw [h]
  exact ⟨List.pairwise_lt_range', fun k hk => by rw [List.mem_range'_1] at hk; omega⟩

/-- No two queued entries carry the same ingress counter. -/
theorem C37_queued_counters_unique (c : Config W) (handler : EthEvent → W → W × Bool) (steps : List (Step W))
    (hb : c.lifts.length + steps.length < 2 ^ 64) :
    ((c.after handler steps).unchecked.map (fun u => u.counter) ++
      (c.after handler steps).pending.map (fun p => p.counter)).Nodup :=
  (counters_run c handler steps hb).2.2.2.1

/-! ## C38 -/

/-- A successful `submit` with a free place in the pending queue moves the event: it is pending afterwards, with
the submitted result and counter, and no longer unchecked. Missing for the full property: the case of 50 pending events,
where it is false (`C38_full_queue_drops_event`). -/
theorem C38_checked_event_is_kept_partial (c : Config W) (handler : EthEvent → W → W × Bool) (steps : List (Step W))
    (chk : Check) (counter : Nat) (s' : State W) (hroom : (c.after handler steps).pending.length < 50)
    (h : submitCheck (c.after handler steps) chk counter = .ok s') :
    (∃ p ∈ s'.pending, p.check.event = chk.event ∧ p.check.result = chk.result ∧ p.check.checkedBy = chk.checkedBy ∧
      p.counter = counter) ∧
    (∀ u ∈ s'.unchecked, u.id ≠ chk.event.id) ∧
    (∀ u ∈ (c.after handler steps).unchecked, u.id ≠ chk.event.id → u ∈ s'.unchecked) ∧
    (∀ p ∈ (c.after handler steps).pending, p ∈ s'.pending) := by
  have inv := c.inv handler steps
  generalize c.after handler steps = s at inv h hroom
  unfold submitCheck at h
  by_cases h1 : Avn.isValidator s.validators chk.checkedBy = false
  · rw [if_pos h1] at h; cases h
  rw [if_neg h1] at h
  by_cases h2 : s.unchecked.any (fun u => u.id == chk.event.id && u.counter == counter) = false
  · rw [if_pos h2] at h; cases h
  rw [if_neg h2] at h
  by_cases h3 : s.block + s.period < pow32
  · rw [if_pos h3] at h
    injection h with h
    subst h
    refine ⟨⟨⟨{ chk with readyAfter := s.block + s.period, minVotes := s.validators.length / s.quorumFactor }, counter,
      s.block⟩, ?_, rfl, rfl, rfl, rfl⟩, ?_, ?_, ?_⟩
    · unfold emit pushBounded maxPending
      dsimp only
      rw [if_pos hroom]
      simp
    · intro u hu e
      have hnd : (s.unchecked.map Unchecked.id).Nodup := (List.nodup_append.1 inv.nodup).1
      obtain ⟨w, hw, hqw⟩ := List.any_eq_true.1 (Bool.not_eq_false _ ▸ h2 : s.unchecked.any (fun u => u.id == chk.event.id && u.counter == counter) = true)
      obtain ⟨a, l1, l2, -, ha, hsp, he⟩ := List.exists_of_eraseP (p := fun u => u.id == chk.event.id && u.counter == counter) hw hqw
      have hu' : u ∈ l1 ++ l2 := by rw [← he]; exact hu
      simp only [Bool.and_eq_true, beq_iff_eq] at ha
      rw [hsp, List.map_append, List.map_cons] at hnd
      have := List.nodup_middle.1 hnd
      rw [List.nodup_cons, ← List.map_append] at this
      exact this.1 (List.mem_map.2 ⟨u, hu', e.trans ha.1.symm⟩)
    · intro u hu hne
      show u ∈ s.unchecked.eraseP _
      rw [List.mem_eraseP_of_neg (by simp [hne])]
      exact hu
    · intro p hp
      exact mem_pushBounded_old hp
  · rw [if_neg h3] at h; cases h

/-! ## C39 -/

/-- The recorded challengers of an event are distinct, at most 50, and are exactly the first 50 accounts that challenged it
since it was last processed without a successful challenge. -/
theorem C39_challengers_distinct_bounded_partial (c : Config W) (handler : EthEvent → W → W × Bool) (steps : List (Step W))
    (id : EventId) :
    ((c.after handler steps).challenges id).Nodup ∧ ((c.after handler steps).challenges id).length ≤ 50 ∧
    (c.after handler steps).challenges id = (openChallengers (c.after handler steps).log id).take 50 :=
  ⟨((c.inv handler steps).distinct id).1, ((c.inv handler steps).distinct id).2, (c.inv handler steps).chal id⟩

/-- Each challenge was made by a validator of that moment, against a pending check result made by somebody else, and by
an account that had not challenged this event yet. -/
theorem C39_challengers_are_other_validators_partial (c : Config W) (handler : EthEvent → W → W × Bool) (steps : List (Step W))
    (b : Nat) (id : EventId) (a : Nat) (h : (b, Obs.challenged id a) ∈ (c.after handler steps).log) :
    ∃ pre t post, steps = pre ++ t :: post ∧ Avn.isValidator (c.after handler pre).validators a = true ∧
      (∃ p ∈ (c.after handler pre).pending, p.check.event.id = id ∧ p.check.checkedBy ≠ a) ∧
      a ∉ (c.after handler pre).challenges id := by
  rcases log_origin handler _ steps _ h with h | ⟨pre, t, post, hsteps, new, hx, hnew⟩
  · simp [genesis] at h
  refine ⟨pre, t, post, hsteps, ?_⟩
  change (step handler (c.after handler pre) t).log = (c.after handler pre).log ++ new at hnew
  generalize c.after handler pre = s at hnew
  have nolog : ∀ s' : State W, s'.log = s.log ++ new → ∀ es : List (Nat × Obs), s'.log = s.log ++ es → new = es := by
    intro s' h1 es h2
    rw [h1] at h2
    exact List.append_cancel_left h2
  have v := step_view (handler := handler) s t
  generalize step handler s t = s' at v hnew
  cases v with
  | frame s' hu hp hpr hc hq hi hf hl => rw [nolog _ hnew [] (by simp [hl])] at hx; simp at hx
  | period p hp => rw [nolog _ hnew _ rfl] at hx; simp at hx
  | bridge tx acc hne => rw [nolog _ hnew [] (by simp)] at hx; simp at hx
  | added ty tx a' nonces hf hpr hxx hlen h0 => rw [nolog _ hnew _ rfl] at hx; simp at hx
  | challenged id' by_ counter p hv hp hself hdup =>
    rw [nolog _ hnew _ rfl] at hx
    simp only [List.map_cons, List.map_nil, List.mem_singleton, Prod.mk.injEq, Obs.challenged.injEq] at hx
    obtain ⟨rfl, rfl, rfl⟩ := hx
    have := List.find?_some hp
    simp only [Bool.and_eq_true, beq_iff_eq] at this
    exact ⟨hv, ⟨p, by simpa using List.mem_of_find?_eq_some hp, this.1, hself⟩, hdup⟩
  | submitted chk k hv hex hb hs => rw [nolog _ hnew _ rfl] at hx; simp at hx
  | refused id' named p hp hb hr hv =>
    rw [nolog _ hnew _ (refused_log s p id' named)] at hx
    simp only [List.mem_append, List.mem_map] at hx
    rcases hx with ⟨o, ho, e1⟩ | ⟨o, ho, e1⟩
    · exact absurd ((Prod.mk.inj e1).2 ▸ ho) (settle_no_challenged s p id' named id a)
    · simp only [List.mem_singleton] at ho
      subst ho; simp at e1
  | delivered id' named p hp hb hr hc hn hv hs =>
    rw [nolog _ hnew _ (delivered_log handler s p id' named)] at hx
    simp only [List.mem_append, List.mem_map] at hx
    rcases hx with ⟨o, ho, e1⟩ | ⟨o, ho, e1⟩
    · exact absurd ((Prod.mk.inj e1).2 ▸ ho) (settle_no_challenged s p id' named id a)
    · simp only [List.mem_cons, List.not_mem_nil, or_false] at ho
      rcases ho with ho | ho
      · subst ho; simp at e1
      · split at ho <;> subst ho <;> simp at e1

/-- A successful processing declares the challenge successful exactly when the number of recorded challengers exceeds
the larger of the minimum fixed at check time and the current number of validators divided by the quorum factor. -/
theorem C39_challenge_threshold (c : Config W) (handler : EthEvent → W → W × Bool) (steps : List (Step W))
    (id : EventId) (v : Nat) (s' : State W) (h : processEvent handler (c.after handler steps) id v = .ok s') :
    ∃ p ∈ (c.after handler steps).pending, p.check.event.id = id ∧ ∃ new, s'.log = (c.after handler steps).log ++ new ∧
      ((∃ x ∈ new, ∃ r, x.2 = Obs.challengeSucceeded id r) ↔
        max p.check.minVotes ((c.after handler steps).validators.length / (c.after handler steps).quorumFactor) <
          ((c.after handler steps).challenges id).length) := by
  generalize c.after handler steps = s at h
  unfold processEvent at h
  by_cases h1 : Avn.isValidator s.validators v = false
  · rw [if_pos h1] at h; cases h
  rw [if_neg h1] at h
  cases hp : lastPending s.pending id with
  | none => rw [hp] at h; cases h
  | some p =>
    rw [hp] at h
    dsimp only at h
    obtain ⟨hmem, hid⟩ := lastPending_mem hp
    have hid' : p.check.event.id = id := hid
    by_cases h2 : s.block ≤ p.check.readyAfter
    · rw [if_pos h2] at h; cases h
    rw [if_neg h2] at h
    refine ⟨p, hmem, hid', ?_⟩
    have key : (∃ o ∈ settleNew s p id v, ∃ r, o = Obs.challengeSucceeded id r) ↔
        max p.check.minVotes (s.validators.length / s.quorumFactor) < (s.challenges id).length := by
      unfold settleNew
      constructor
      · rintro ⟨o, ho, r, rfl⟩
        by_cases hc : challengeSuccessful s p.check = true
        · unfold challengeSuccessful at hc
          rw [hid'] at hc
          simpa using hc
        · rw [if_neg hc] at ho
          by_cases h4 : s.challenges id = []
          · rw [if_pos h4] at ho; simp at ho
          · rw [if_neg h4] at ho; simp at ho
      · intro hc
        have hc' : challengeSuccessful s p.check = true := by
          unfold challengeSuccessful; rw [hid']; simpa using hc
        rw [if_pos hc']
        exact ⟨.challengeSucceeded id p.check.result, by simp, _, rfl⟩
    by_cases h3 : p.check.result = .ok ∧ challengeSuccessful s p.check = false ∧ s.processed id.txHash = none
    · rw [if_pos h3] at h
      injection h with h
      subst h
      refine ⟨_, delivered_log handler s p id v, ?_⟩
      rw [← key]
      constructor
      · rintro ⟨x, hx, r, hr⟩
        rcases List.mem_append.1 hx with hx | hx
        · obtain ⟨o, ho, rfl⟩ := List.mem_map.1 hx
          exact ⟨o, ho, r, hr⟩
        · simp only [List.map_cons, List.map_nil, List.mem_cons, List.not_mem_nil, or_false] at hx
          rcases hx with rfl | rfl
          · cases hr
          · dsimp only at hr; split at hr <;> cases hr
      · rintro ⟨o, ho, r, hr⟩
        exact ⟨(s.block, o), List.mem_append.2 (.inl (List.mem_map_of_mem ho)), r, hr⟩
    · rw [if_neg h3] at h
      injection h with h
      subst h
      refine ⟨_, refused_log s p id v, ?_⟩
      rw [← key]
      constructor
      · rintro ⟨x, hx, r, hr⟩
        rcases List.mem_append.1 hx with hx | hx
        · obtain ⟨o, ho, rfl⟩ := List.mem_map.1 hx
          exact ⟨o, ho, r, hr⟩
        · simp only [List.map_cons, List.map_nil, List.mem_cons, List.not_mem_nil, or_false] at hx
          subst hx
          cases hr
      · rintro ⟨o, ho, r, hr⟩
        exact ⟨(s.block, o), List.mem_append.2 (.inl (List.mem_map_of_mem ho)), r, hr⟩

/-- C37 (what is recorded): processing an event records its transaction as accepted, unless the check found the event invalid, or it was
successfully challenged and its transaction not recorded before: then nothing is recorded, so that the event may be added again. No other
transaction is touched. -/
theorem C37_processing_records (c : Config W) (handler : EthEvent → W → W × Bool) (steps : List (Step W))
    (id : EventId) (v : Nat) (s' : State W) (h : processEvent handler (c.after handler steps) id v = .ok s') :
    ∃ p ∈ (c.after handler steps).pending, p.check.event.id = id ∧ s'.processed =
      if p.check.result = .invalid ∨ (max p.check.minVotes ((c.after handler steps).validators.length / (c.after handler steps).quorumFactor) <
          ((c.after handler steps).challenges id).length ∧ (c.after handler steps).processed id.txHash = none)
      then (c.after handler steps).processed
      else fun tx => if tx = id.txHash then some true else (c.after handler steps).processed tx := by
  have hk := (c.inv handler steps).known
  generalize c.after handler steps = s at h hk
  unfold processEvent at h
  by_cases h1 : Avn.isValidator s.validators v = false
  · rw [if_pos h1] at h; cases h
  rw [if_neg h1] at h
  cases hp : lastPending s.pending id with
  | none => rw [hp] at h; cases h
  | some p =>
    rw [hp] at h
    dsimp only at h
    obtain ⟨hmem, hid⟩ := lastPending_mem hp
    have hid' : p.check.event.id = id := hid
    by_cases h2 : s.block ≤ p.check.readyAfter
    · rw [if_pos h2] at h; cases h
    rw [if_neg h2] at h
    refine ⟨p, hmem, hid', ?_⟩
    have hc : challengeSuccessful s p.check = true ↔
        max p.check.minVotes (s.validators.length / s.quorumFactor) < (s.challenges id).length := by
      unfold challengeSuccessful; rw [hid']; simp
    have hsig : (tryFrom id.signature).isSome = true := by
      refine hk id ?_
      unfold queued
      exact List.mem_append.2 (.inr (List.mem_map.2 ⟨p, hmem, hid⟩))
    have hmark : markProcessed s.processed id = fun tx => if tx = id.txHash then some true else s.processed tx := by
      unfold markProcessed
      by_cases h4 : s.processed id.txHash = some true
      · rw [if_pos h4]
        funext tx
        by_cases h5 : tx = id.txHash
        · rw [if_pos h5, h5, h4]
        · rw [if_neg h5]
      · rw [if_neg h4, if_pos (by simp [hsig])]
        rfl
    have hset : (settle s p id v).processed = if p.check.result = .invalid ∨
        (max p.check.minVotes (s.validators.length / s.quorumFactor) < (s.challenges id).length ∧ s.processed id.txHash = none)
        then s.processed else fun tx => if tx = id.txHash then some true else s.processed tx := by
      rw [← hmark]
      simp only [← hc]
      rfl
    by_cases h3 : p.check.result = .ok ∧ challengeSuccessful s p.check = false ∧ s.processed id.txHash = none
    · rw [if_pos h3] at h
      injection h with h
      subst h
      exact hset
    · rw [if_neg h3] at h
      injection h with h
      subst h
      exact hset

/-- C39: every challenge on record was submitted in the challenger's own name, with a valid signature, against an entry of the pending
queue carrying the stated counter. -/
theorem C39_challenges_are_signed_by_the_challenger (c : Config W) (handler : EthEvent → W → W × Bool) (steps : List (Step W))
    (b : Nat) (id : EventId) (a : Nat) (h : (b, Obs.challenged id a) ∈ (c.after handler steps).log) :
    ∃ pre counter post, steps = pre ++ .challenge id a counter a true :: post ∧
      ∃ p ∈ (c.after handler pre).pending, p.check.event.id = id ∧ p.counter = counter := by
  rcases log_origin handler _ steps _ h with h | ⟨pre, t, post, hsteps, new, hx, hnew⟩
  · simp [genesis] at h
  change (step handler (c.after handler pre) t).log = (c.after handler pre).log ++ new at hnew
  suffices hs : ∃ counter, t = .challenge id a counter a true ∧ ∃ p ∈ (c.after handler pre).pending, p.check.event.id = id ∧ p.counter = counter by
    obtain ⟨counter, rfl, hp⟩ := hs
    exact ⟨pre, counter, post, hsteps, hp⟩
  generalize c.after handler pre = s at hnew
  have nolog : ∀ s' : State W, s'.log = s.log ++ new → ∀ es : List (Nat × Obs), s'.log = s.log ++ es → new = es := by
    intro s' h1 es h2
    rw [h1] at h2
    exact List.append_cancel_left h2
  have hvc : ∀ id' by_ k n g, t = .challenge id' by_ k n g → step handler s t ≠ s → validChallenge s id' by_ k n g = true := by
    intro id' by_ k n g ht hne
    by_cases hv : validChallenge s id' by_ k n g = true
    · exact hv
    · subst ht
      simp only [step, if_neg hv] at hne
      exact absurd rfl hne
  have hne : step handler s t ≠ s := by
    intro e
    rw [e] at hnew
    have : new = [] := by simpa using hnew
    rw [this] at hx
    simp at hx
  have v := step_view (handler := handler) s t
  generalize step handler s t = s' at v hnew hvc hne
  cases v with
  | frame s' hu hp hpr hc hq hi hf hl => rw [nolog _ hnew [] (by simp [hl])] at hx; simp at hx
  | period p hp => rw [nolog _ hnew _ rfl] at hx; simp at hx
  | bridge tx acc hne => rw [nolog _ hnew [] (by simp)] at hx; simp at hx
  | added ty tx a' nonces hf hpr hxx hlen h0 => rw [nolog _ hnew _ rfl] at hx; simp at hx
  | challenged id' by_ counter p hv hp hself hdup hs =>
    rw [nolog _ hnew _ rfl] at hx
    simp only [List.map_cons, List.map_nil, List.mem_singleton, Prod.mk.injEq, Obs.challenged.injEq] at hx
    obtain ⟨rfl, rfl, rfl⟩ := hx
    obtain ⟨n, g, rfl⟩ := hs
    have hval := hvc _ _ _ _ _ rfl hne
    unfold validChallenge at hval
    simp only [Bool.and_eq_true, beq_iff_eq] at hval
    obtain ⟨⟨⟨h1, h2⟩, h3⟩, h4⟩ := hval
    subst h2 h4
    have := List.find?_some hp
    simp only [Bool.and_eq_true, beq_iff_eq] at this
    exact ⟨counter, rfl, p, by simpa using List.mem_of_find?_eq_some hp, this.1, this.2⟩
  | submitted chk k hv hex hb hs => rw [nolog _ hnew _ rfl] at hx; simp at hx
  | refused id' named p hp hb hr hv =>
    rw [nolog _ hnew _ (refused_log s p id' named)] at hx
    simp only [List.mem_append, List.mem_map] at hx
    rcases hx with ⟨o, ho, e1⟩ | ⟨o, ho, e1⟩
    · exact absurd ((Prod.mk.inj e1).2 ▸ ho) (settle_no_challenged s p id' named id a)
    · simp only [List.mem_singleton] at ho
      subst ho; simp at e1
  | delivered id' named p hp hb hr hc hn hv hs =>
    rw [nolog _ hnew _ (delivered_log handler s p id' named)] at hx
    simp only [List.mem_append, List.mem_map] at hx
    rcases hx with ⟨o, ho, e1⟩ | ⟨o, ho, e1⟩
    · exact absurd ((Prod.mk.inj e1).2 ▸ ho) (settle_no_challenged s p id' named id a)
    · simp only [List.mem_cons, List.not_mem_nil, or_false] at ho
      rcases ho with ho | ho
      · subst ho; simp at e1
      · split at ho <;> subst ho <;> simp at e1

/-- As long as no challenge of this event has ever succeeded, the checker of its pending result is not among the counted
challengers, and no challengers are left over from earlier. Missing for the full property: events resubmitted after a
successful challenge, for which it is false (`C39_old_challenges_count_again`). -/
theorem C39_checker_is_not_a_challenger_partial (c : Config W) (handler : EthEvent → W → W × Bool) (steps : List (Step W))
    (id : EventId)
    (hfirst : ∀ b r, (b, Obs.challengeSucceeded id r) ∉ (c.after handler steps).log) :
    ((∀ p ∈ (c.after handler steps).pending, p.check.event.id ≠ id) → (c.after handler steps).challenges id = []) ∧
    ∀ p ∈ (c.after handler steps).pending, p.check.event.id = id →
      p.check.checkedBy ∉ (c.after handler steps).challenges id := by
  have h := (c.inv handler steps).first id (by
    rw [List.any_eq_false]
    rintro ⟨b, o⟩ hx hs
    cases o with
    | challengeSucceeded i r =>
      simp only [isSucceeded, beq_iff_eq] at hs
      subst hs
      exact hfirst b r hx
    | _ => simp [isSucceeded] at hs)
  refine ⟨fun hn => h.1 (fun hm => ?_), h.2⟩
  obtain ⟨p, hp, e⟩ := List.mem_map.1 hm
  exact hn p hp e

/-- Because at most 50 challengers are recorded, no challenge can ever succeed while the number of validators divided by the
quorum factor is 50 or more (for the default factor 4: from 200 validators on). -/
theorem C39_large_sets_cannot_challenge (c : Config W) (handler : EthEvent → W → W × Bool) (steps : List (Step W))
    (hbig : 50 ≤ (c.after handler steps).validators.length / (c.after handler steps).quorumFactor) (chk : Check) :
    challengeSuccessful (c.after handler steps) chk = false := by
  have := ((c.inv handler steps).distinct chk.event.id).2
  unfold challengeSuccessful
  rw [decide_eq_false_iff_not]
  unfold maxChallenges at this
  omega

/-! ## Concrete histories -/

namespace Example

/-- Five validators, quorum factor 4, NFT events only (the production filter). The runtime counts deliveries. -/
def cfg : Config Nat where
  quorumFactor := 4
  period := 60
  lifts := [7, 8]
  processed := fun h => if h = 9 then some true else none
  validators := [⟨10, 110⟩, ⟨11, 111⟩, ⟨12, 112⟩, ⟨13, 113⟩, ⟨14, 114⟩]
  filter := nftFilter
  world := 0
  distinct := by decide
  factor := by decide

/-- The receiver accepts everything. -/
def accept : EthEvent → Nat → Nat × Bool := fun _ n => (n + 1, true)

/-- An NFT mint in transaction 42. -/
def mint (tx : Nat) : EventId := ⟨signature .nftMint, tx⟩
/-- The check result submitted by the primary of block `at_` (validator `10 + at_ % 5`). -/
def chk (tx at_ : Nat) : Check := ⟨⟨mint tx, 5⟩, .ok, 10 + at_ % 5, at_, 0, 0⟩
/-- Move to a block. -/
def atBlock (b : Nat) : Step Nat := .environment b cfg.validators 0

/-- Add, check, challenge (once: not enough), process. -/
def history : List (Step Nat) :=
  [.addLog .nftMint 42 1, atBlock 3, .submit (chk 42 3) 3 13 true true, .challenge (mint 42) 11 3 11 true,
   atBlock 63, .process (mint 42) 3 12 true, atBlock 64, .process (mint 42) 3 12 true]

/-- At block 63 the window is not over; at block 64 the event is delivered (C36, C37 hypotheses are met). -/
example : (64, Obs.handled ⟨mint 42, 5⟩) ∈ (cfg.after accept history).log ∧
    (63, Obs.handled ⟨mint 42, 5⟩) ∉ (cfg.after accept history).log ∧
    (3, Obs.validated ⟨mint 42, 5⟩ .ok 13 3 60 1) ∈ (cfg.after accept history).log ∧
    (64, Obs.offence [11]) ∈ (cfg.after accept history).log ∧
    (0, Obs.added (mint 42) 3 1) ∈ (cfg.after accept history).log ∧
    ((cfg.after accept history).processed 42) = some true := by decide +kernel

example : cfg.lifts.length + history.length < 2 ^ 64 := by decide

/-- Nobody can add a processed transaction, a queued event or an event outside the filter. -/
example : (cfg.after accept (history ++ [.addLog .nftMint 42 1, .addLog .nftMint 9 1, .addLog .lifted 55 1])).unchecked.length = 2
    ∧ (cfg.after accept [.addLog .nftMint 43 1, .addLog .nftMint 43 2]).unchecked.length = 3 := by decide +kernel

/-- With two challengers the threshold `max 1 (5 / 4)` is exceeded: the event is not delivered, can be added again,
and `C39_challenge_threshold` and `C37_processing_records` apply to this `process` call. -/
def challenged : List (Step Nat) :=
  [.addLog .nftMint 42 1, atBlock 3, .submit (chk 42 3) 3 13 true true, .challenge (mint 42) 11 3 11 true,
   .challenge (mint 42) 12 3 12 true, .challenge (mint 42) 12 3 12 true, .challenge (mint 42) 13 3 13 true, atBlock 64]

example : (cfg.after accept challenged).challenges (mint 42) = [11, 12] ∧
    (processEvent accept (cfg.after accept challenged) (mint 42) 10).isOk = true ∧
    (∀ x ∈ (cfg.after accept challenged).log, ∀ r, x.2 ≠ Obs.challengeSucceeded (mint 42) r) ∧
    (64, Obs.challengeSucceeded (mint 42) .ok) ∈ (cfg.after accept (challenged ++ [.process (mint 42) 3 10 true])).log ∧
    (cfg.after accept (challenged ++ [.process (mint 42) 3 10 true])).processed 42 = none := by
  refine ⟨by decide +kernel, by decide +kernel, ?_, by decide +kernel, by decide +kernel⟩
  intro x hx r e
  have : ∀ x ∈ (cfg.after accept challenged).log, (match x.2 with | .challengeSucceeded .. => false | _ => true) = true := by
    decide +kernel
  have := this x hx
  rw [e] at this
  simp at this

/-- C39 is false for resubmitted events: after the successful challenge the event is added and checked again, this time by
validator 11. The old challenges of 11 and 12 still count, 11 being now the checker itself, and without a single
new challenge the second check is declared successfully challenged and its checker reported. -/
theorem C39_old_challenges_count_again : ∃ steps : List (Step Nat),
    let s := cfg.after accept steps
    (∃ p ∈ s.pending, p.check.event.id = mint 42 ∧ p.check.checkedBy = 11 ∧ p.counter = 4 ∧
      p.check.checkedBy ∈ s.challenges (mint 42)) ∧
    let s' := step accept { s with block := 200 } (.process (mint 42) 4 10 true)
    (200, Obs.challengeSucceeded (mint 42) .ok) ∈ s'.log ∧ (200, Obs.offence [11]) ∈ s'.log := by
  refine ⟨challenged ++ [.process (mint 42) 3 10 true, .addLog .nftMint 42 1, atBlock 66, .submit (chk 42 66) 4 11 true true], ?_⟩
  decide +kernel

/-- The queue of `n` distinct events added and checked. -/
def fill (n : Nat) : List (Step Nat) :=
  (List.range n).flatMap (fun i => [.addLog .nftMint (100 + i) 1, .submit (chk (100 + i) 0) (3 + i) 10 true true])

/-- C38 is false when 50 checked events are waiting: the check is accepted and announced, and the event is in neither
queue, not processed and never delivered. -/
theorem C38_full_queue_drops_event : ∃ steps : List (Step Nat),
    let s := cfg.after accept steps
    s.pending.length = 50 ∧ (∃ u ∈ s.unchecked, u.id = mint 150 ∧ u.counter = 53) ∧
    let s' := step accept s (.submit (chk 150 0) 53 10 true true)
    (0, Obs.validated ⟨mint 150, 5⟩ .ok 10 53 60 1) ∈ s'.log ∧
    (∀ u ∈ s'.unchecked, u.id ≠ mint 150) ∧ (∀ p ∈ s'.pending, p.check.event.id ≠ mint 150) ∧
    s'.processed 150 = none := by
  refine ⟨fill 50 ++ [.addLog .nftMint 150 1], ?_⟩
  decide +kernel

/-- `C38_checked_event_is_kept_partial` applies to this call. -/
example : (cfg.after accept (fill 3 ++ [.addLog .nftMint 150 1])).pending.length = 3 ∧
    (submitCheck (cfg.after accept (fill 3 ++ [.addLog .nftMint 150 1])) (chk 150 0) 6).isOk = true := by decide +kernel

/-- Two events of different kinds in one transaction can be queued together, but only one is applied: the second is
rejected because the transaction is recorded as processed. So a *transaction* can be processed and queued at once. -/
theorem C37_processed_transaction_can_be_queued : ∃ steps : List (Step Nat),
    let s := cfg.after accept steps
    s.processed 42 = some true ∧ (∃ u ∈ s.unchecked, u.id.txHash = 42) := by
  refine ⟨.addLog .nftTransferTo 42 1 :: [.addLog .nftMint 42 1, atBlock 3, .submit (chk 42 3) 4 13 true true, atBlock 64,
    .process (mint 42) 4 12 true], ?_⟩
  decide +kernel

/-- Two hundred validators and factor 4: `C39_large_sets_cannot_challenge` applies. -/
example : 50 ≤ (({ cfg with validators := (List.range 200).map (fun i => ⟨i, i⟩) } : Config Nat).after accept []).validators.length /
    (({ cfg with validators := (List.range 200).map (fun i => ⟨i, i⟩) } : Config Nat).after accept []).quorumFactor := by
  decide +kernel

end Example

end Verif.EthEvents
