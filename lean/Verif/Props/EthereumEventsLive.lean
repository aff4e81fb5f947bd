import Verif.Props.EthereumEvents

/-!
# C149: the legacy event pipeline honours requests and reports

`Waiting s id` and `Queued s id` read the queues off the state; nothing else of the pallet's helpers occurs in the statements.
-/

namespace Verif.EthEvents

open Verif Verif.Events

variable {W : Type}

/-- The event was reported to the chain and waits for a check, waits for challenges, or its transaction was processed. -/
def KnownToChain (s : State W) (id : EventId) : Prop :=
  (s.processed id.txHash).isSome ∨ (∃ u ∈ s.unchecked, u.id = id) ∨ ∃ p ∈ s.pending, p.check.event.id = id

theorem existsInSystem_iff (s : State W) (id : EventId) : existsInSystem s id = true ↔ KnownToChain s id := by
  unfold existsInSystem KnownToChain
  simp only [Bool.or_eq_true, List.any_eq_true, beq_iff_eq, Pending.id, or_assoc]

/-- **C149, reports of transactions.** A report of an Ethereum transaction is accepted exactly if the hash is not zero, the runtime takes
events of that type as primary events, the event is new to the chain and fewer than 500 wait for a check; it is then queued with the next
counter and everything else stays. -/
theorem C149_report_accepted_iff (s : State W) (ty : ValidEvent) (tx sender : Nat) :
    ((∃ s', addLog s ty tx sender = .ok s') ↔ tx ≠ 0 ∧ ty ∈ s.filter ∧ isPrimary ty = true ∧ ¬ KnownToChain s ⟨signature ty, tx⟩ ∧
      s.unchecked.length < 500) ∧
    ∀ s', addLog s ty tx sender = .ok s' → s' = { s with
      ingress := (s.ingress + 1) % 2 ^ 64
      unchecked := s.unchecked ++ [⟨⟨signature ty, tx⟩, (s.ingress + 1) % 2 ^ 64, s.block⟩]
      log := s.log ++ [(s.block, .added ⟨signature ty, tx⟩ ((s.ingress + 1) % 2 ^ 64) sender)] } := by
  rw [← existsInSystem_iff]
  unfold addLog addEvent maxUnchecked
  constructor
  · constructor
    · rintro ⟨s', h⟩
      repeat' split at h
      all_goals first | (cases h; done) | skip
      rename_i h1 h2 h3 h4 h5
      exact ⟨h1, by simpa using h2, by simpa using h3, h4, h5⟩
    · rintro ⟨h1, h2, h3, h4, h5⟩
      rw [if_neg h1, if_neg (by simpa using h2), if_neg (by simp [h3]), if_neg h4, if_pos h5]
      exact ⟨_, rfl⟩
  · intro s' h
    repeat' split at h
    all_goals first | (cases h; done) | skip
    injection h with h
    rw [← h]; rfl

/-- **C149, relayed reports.** A report relayed with the reporter's signature is accepted exactly if the relayed account is the one that
signed the extrinsic, the signature is for its current nonce, and the report itself is accepted; the nonce then goes up by one. -/
theorem C149_signed_report_accepted_iff (s : State W) (ty : ValidEvent) (tx sender signer : Nat) (sigOk : Nat → Bool) :
    ((∃ s', signedAddLog s ty tx sender signer sigOk = .ok s') ↔
      sender = signer ∧ sigOk (s.nonces sender) = true ∧ ∃ s', addLog s ty tx sender = .ok s') ∧
    ∀ s', signedAddLog s ty tx sender signer sigOk = .ok s' → s'.nonces sender = (s.nonces sender + 1) % 2 ^ 64 ∧
      (∀ a, a ≠ sender → s'.nonces a = s.nonces a) ∧ addLog s ty tx sender = .ok { s' with nonces := s.nonces } := by
  have key : ∀ n, addEvent { s with nonces := n } ty tx sender = (addEvent s ty tx sender).map (fun r => { r with nonces := n }) := by
    intro n
    unfold addEvent
    have e : ∀ i, existsInSystem { s with nonces := n } i = existsInSystem s i := fun _ => rfl
    rw [e]
    dsimp only
    repeat' split
    all_goals rfl
  have keep : ∀ r, addEvent s ty tx sender = .ok r → r.nonces = s.nonces := by
    intro r h
    unfold addEvent at h
    repeat' split at h
    all_goals first | (cases h; done) | skip
    injection h with h; rw [← h]; rfl
  unfold signedAddLog addLog
  constructor
  · constructor
    · rintro ⟨s', h⟩
      split at h
      · cases h
      · split at h
        · cases h
        · split at h
          · cases h
          · rename_i h1 h2 h3
            rw [key] at h
            rw [if_neg h2]
            cases hr : addEvent s ty tx sender with
            | error e => rw [hr] at h; cases h
            | ok r => exact ⟨by simpa using h1, by simpa using h3, r, rfl⟩
    · rintro ⟨h1, h2, r, h3⟩
      split at h3
      · cases h3
      · rename_i h4
        rw [if_neg (by simpa using h1), if_neg h4, if_neg (by simp [h2]), key, h3]
        exact ⟨_, rfl⟩
  · intro s' h
    split at h
    · cases h
    · split at h
      · cases h
      · split at h
        · cases h
        · rename_i h1 h2 h3
          rw [key] at h
          rw [if_neg h2]
          cases hr : addEvent s ty tx sender with
          | error e => rw [hr] at h; cases h
          | ok r =>
            rw [hr] at h
            have h : (Except.ok { r with nonces := upd s.nonces sender (wrapInc64 (s.nonces sender)) } : Except Err (State W)) = .ok s' := h
            injection h with h
            have hn := keep r hr
            subst h
            refine ⟨upd_same _ _ _, fun a ha => upd_ne _ _ ha, ?_⟩
            rw [← hn]

/-- A check result is taken exactly if the pool admits it and the period does not push the block number out of range. -/
theorem C149_check_accepted_iff (s : State W) (c : Check) (counter named : Nat) (dataOk sigOk : Bool) :
    (validSubmit s c counter named dataOk sigOk = true ∧ ∃ s', submitCheck s c counter = .ok s') ↔
      (∃ u ∈ s.unchecked, u.id = c.event.id ∧ u.counter = counter) ∧ dataOk = true ∧ sigOk = true ∧ named = c.checkedBy ∧
        Avn.primaryForBlock s.validators c.checkedAt = .ok c.checkedBy ∧ Avn.isValidator s.validators c.checkedBy = true ∧
        s.block + s.period < 2 ^ 32 := by
  have hu : s.unchecked.any (fun u => u.id == c.event.id && u.counter == counter) = true ↔
      ∃ u ∈ s.unchecked, u.id = c.event.id ∧ u.counter = counter := by simp
  unfold validSubmit submitCheck pow32
  simp only [Bool.and_eq_true]
  rw [hu]
  constructor
  · rintro ⟨⟨⟨⟨⟨⟨h1, h2⟩, h3⟩, h4⟩, h5⟩, h6⟩, s', h⟩
    have h4 : named = c.checkedBy := by simpa using h4
    refine ⟨h1, h2, h6, h4, ?_, h4 ▸ h5, ?_⟩
    · cases hp : Avn.primaryForBlock s.validators c.checkedAt with
      | ok v => rw [hp] at h3; simp at h3; rw [h3]
      | error e => rw [hp] at h3; simp at h3
    · repeat' split at h
      all_goals first | (cases h; done) | assumption
  · rintro ⟨h1, h2, h3, h4, h5, h6, h7⟩
    refine ⟨⟨⟨⟨⟨⟨h1, h2⟩, ?_⟩, by simp [h4]⟩, h4 ▸ h6⟩, h3⟩, ?_⟩
    · rw [h5]; simp
    · rw [if_neg (by simp [h6]), if_neg (by rw [hu.2 h1]; simp), if_pos h7]
      exact ⟨_, rfl⟩

private theorem pending_unique {s : State W} (h : (queued s).Nodup) {p q : Pending} (hp : p ∈ s.pending) (hq : q ∈ s.pending)
    (e : p.id = q.id) : p = q := by
  unfold queued at h
  have h2 := (List.nodup_append.1 h).2.1
  exact List.inj_on_of_nodup_map h2 hp hq e

private theorem lastPending_eq {s : State W} (h : (queued s).Nodup) {p : Pending} (hp : p ∈ s.pending) :
    lastPending s.pending p.id = some p := by
  cases hl : lastPending s.pending p.id with
  | none =>
    unfold lastPending at hl
    rw [List.find?_eq_none] at hl
    exact absurd (by simp) (hl p (by simpa using hp))
  | some q =>
    obtain ⟨h1, h2⟩ := lastPending_mem hl
    rw [pending_unique h h1 hp h2]

/-- **C149, challenges.** In every history a challenge is taken exactly if the event waits for challenges under that counter, somebody
else made its check, the challenger is a validator that signed it and has not challenged this event yet. -/
theorem C149_challenge_accepted_iff (c : Config W) (handler : EthEvent → W → W × Bool) (steps : List (Step W)) (id : EventId)
    (by_ counter named : Nat) (sigOk : Bool) :
    (validChallenge (c.after handler steps) id by_ counter named sigOk = true ∧
        ∃ s', challengeEvent (c.after handler steps) id by_ counter = .ok s') ↔
      (∃ p ∈ (c.after handler steps).pending, p.check.event.id = id ∧ p.counter = counter ∧ p.check.checkedBy ≠ by_) ∧
        named = by_ ∧ Avn.isValidator (c.after handler steps).validators by_ = true ∧ sigOk = true ∧
        by_ ∉ (c.after handler steps).challenges id := by
  have hn := (c.inv handler steps).nodup
  generalize c.after handler steps = s at *
  unfold validChallenge challengeEvent
  simp only [Bool.and_eq_true]
  constructor
  · rintro ⟨⟨⟨⟨h1, h2⟩, h3⟩, h4⟩, s', h⟩
    have h2 : named = by_ := by simpa using h2
    split at h
    · cases h
    · split at h
      · cases h
      · rename_i p hp
        have hm : p ∈ s.pending := by simpa using List.mem_of_find?_eq_some hp
        have hs := List.find?_some hp
        simp only [Bool.and_eq_true, beq_iff_eq] at hs
        split at h
        · cases h
        · split at h
          · cases h
          · rename_i h5 h6
            exact ⟨⟨p, hm, hs.1, hs.2, h5⟩, h2, h2 ▸ h3, h4, h6⟩
  · rintro ⟨⟨p, hp, h1, h2, h3⟩, h4, h5, h6, h7⟩
    refine ⟨⟨⟨⟨?_, by simp [h4]⟩, h4 ▸ h5⟩, h6⟩, ?_⟩
    · rw [List.any_eq_true]; exact ⟨p, hp, by simp [Pending.id, h1, h2]⟩
    · rw [if_neg (by simp [h5])]
      have hf : s.pending.reverse.find? (fun p => p.id == id && p.counter == counter) = some p := by
        cases hl : s.pending.reverse.find? (fun p => p.id == id && p.counter == counter) with
        | none =>
          rw [List.find?_eq_none] at hl
          exact absurd (by simp [Pending.id, h1, h2]) (hl p (by simpa using hp))
        | some q =>
          have hm : q ∈ s.pending := by simpa using List.mem_of_find?_eq_some hl
          have hs := List.find?_some hl
          simp only [Bool.and_eq_true, beq_iff_eq] at hs
          rw [pending_unique hn hm hp (hs.1.trans h1.symm)]
      rw [hf]
      dsimp only
      rw [if_neg h3, if_neg h7]
      exact ⟨_, rfl⟩

/-- **C149, processing.** In every history a validator's request to process an event is taken exactly if the event waits for challenges
under that counter and its challenge period has passed. -/
theorem C149_processing_accepted_iff (c : Config W) (handler : EthEvent → W → W × Bool) (steps : List (Step W)) (id : EventId)
    (counter named : Nat) (sigOk : Bool) :
    (validProcess (c.after handler steps) id counter named sigOk = true ∧
        ∃ s', processEvent handler (c.after handler steps) id named = .ok s') ↔
      (∃ p ∈ (c.after handler steps).pending, p.check.event.id = id ∧ p.counter = counter ∧
        p.check.readyAfter < (c.after handler steps).block) ∧
        Avn.isValidator (c.after handler steps).validators named = true ∧ sigOk = true := by
  have hn := (c.inv handler steps).nodup
  generalize c.after handler steps = s at *
  unfold validProcess processEvent
  simp only [Bool.and_eq_true]
  constructor
  · rintro ⟨⟨⟨h1, h2⟩, h3⟩, s', h⟩
    rw [List.any_eq_true] at h1
    obtain ⟨p, hp, h1⟩ := h1
    simp only [Bool.and_eq_true, beq_iff_eq] at h1
    rw [← h1.1, lastPending_eq hn hp] at h
    refine ⟨⟨p, hp, h1.1, h1.2, ?_⟩, h2, h3⟩
    split at h
    · cases h
    · dsimp only at h
      split at h
      · cases h
      · omega
  · rintro ⟨⟨p, hp, h1, h2, h3⟩, h4, h5⟩
    refine ⟨⟨⟨?_, h4⟩, h5⟩, ?_⟩
    · rw [List.any_eq_true]; exact ⟨p, hp, by simp [Pending.id, h1, h2]⟩
    · have : id = p.id := h1.symm
      rw [if_neg (by simp [h4]), this, lastPending_eq hn hp]
      dsimp only
      rw [if_neg (by omega)]
      split <;> exact ⟨_, rfl⟩

/-- **C149, a good event is applied.** In every history: if an event's check says it is genuine, its transaction was not processed, its
challenge period has passed and not more validators challenged it than the quorum allows, then any validator's signed request to process
it hands it to its handler, once, and the event leaves the queue. -/
theorem C149_good_event_is_applied (c : Config W) (handler : EthEvent → W → W × Bool) (steps : List (Step W)) (p : Pending)
    (hp : p ∈ (c.after handler steps).pending) (hok : p.check.result = .ok)
    (hnew : (c.after handler steps).processed p.check.event.id.txHash = none)
    (hready : p.check.readyAfter < (c.after handler steps).block)
    (hch : ((c.after handler steps).challenges p.check.event.id).length ≤
      max p.check.minVotes ((c.after handler steps).validators.length / (c.after handler steps).quorumFactor))
    (v : Nat) (hv : Avn.isValidator (c.after handler steps).validators v = true) :
    let s := c.after handler steps
    let s' := c.after handler (steps ++ [.process p.check.event.id p.counter v true])
    s'.world = (handler p.check.event s.world).1 ∧ (s.block, Obs.handled p.check.event) ∈ s'.log ∧
      (s.block, if (handler p.check.event s.world).2 = true then Obs.accepted p.check.event.id
        else .rejected p.check.event.id .ok false) ∈ s'.log ∧
      (∀ q ∈ s'.pending, q.check.event.id ≠ p.check.event.id) ∧ (s'.processed p.check.event.id.txHash).isSome := by
  intro s s'
  have hinv := c.inv handler (steps ++ [.process p.check.event.id p.counter v true])
  have hval := (C149_processing_accepted_iff c handler steps p.check.event.id p.counter v true).2 ⟨⟨p, hp, rfl, rfl, hready⟩, hv, rfl⟩
  have hn := (c.inv handler steps).nodup
  have hcs : challengeSuccessful s p.check = false := by
    unfold challengeSuccessful; rw [decide_eq_false_iff_not]; exact Nat.not_lt.2 hch
  have e : processEvent handler s p.check.event.id v = .ok (deliver handler (settle s p p.check.event.id v) p p.check.event.id) := by
    unfold processEvent
    rw [if_neg (by simp [s, hv])]
    have hl : lastPending s.pending p.check.event.id = some p := lastPending_eq hn hp
    rw [hl]
    dsimp only
    rw [if_neg (Nat.not_le.2 hready), if_pos ⟨hok, hcs, hnew⟩]
  have hs' : s' = deliver handler (settle s p p.check.event.id v) p p.check.event.id := by
    show run handler _ (steps ++ [_]) = _
    unfold run
    rw [List.foldl_append]
    show step handler s (.process p.check.event.id p.counter v true) = _
    unfold step
    dsimp only
    rw [if_pos hval.1, e]; rfl
  have hw : s'.world = (handler p.check.event s.world).1 := by rw [hs']; rfl
  have hh : (s.block, Obs.handled p.check.event) ∈ s'.log := by
    rw [hs']; unfold deliver emit; dsimp only
    refine List.mem_append_right _ ?_
    exact List.mem_map.2 ⟨_, List.mem_cons_self .., rfl⟩
  refine ⟨hw, hh, ?_, ?_, C37_applied_is_recorded c handler _ _ _ hh⟩
  · rw [hs']; unfold deliver emit; dsimp only
    refine List.mem_append_right _ (List.mem_map.2 ⟨_, List.mem_cons_of_mem _ (List.mem_singleton.2 rfl), ?_⟩)
    rw [hok]; rfl
  · intro q hq
    rw [hs'] at hq
    have hq : q ∈ removeLast s.pending p.check.event.id := hq
    intro he
    have hnd := (List.nodup_append.1 hn).2.1
    exact removeLast_not_mem hnd (List.mem_map.2 ⟨q, hq, he⟩)

/-! ### Examples -/

open Example

/-- A report that is accepted, one that is not new, and one of a type the runtime does not take here. -/
example : (addLog (cfg.after accept []) .nftMint 42 1).isOk = true ∧ (addLog (cfg.after accept history) .nftMint 42 1).isOk = false ∧
    (addLog (cfg.after accept []) .lifted 42 1).isOk = false := by decide +kernel
/-- A relayed report, a check, a challenge and a processing that are taken. -/
example : (signedAddLog (cfg.after accept []) .nftMint 42 1 1 (fun n => n == 0)).isOk = true ∧
    validSubmit (cfg.after accept (history.take 2)) (chk 42 3) 3 13 true true = true ∧
    (submitCheck (cfg.after accept (history.take 2)) (chk 42 3) 3).isOk = true ∧
    validChallenge (cfg.after accept (history.take 3)) (mint 42) 11 3 11 true = true ∧
    (challengeEvent (cfg.after accept (history.take 3)) (mint 42) 11 3).isOk = true ∧
    validProcess (cfg.after accept (history.take 7)) (mint 42) 3 12 true = true ∧
    (processEvent accept (cfg.after accept (history.take 7)) (mint 42) 12).isOk = true := by decide +kernel
/-- A waiting event that meets the hypotheses of `C149_good_event_is_applied`, once challenged. -/
example : ∃ p ∈ (cfg.after accept (history.take 7)).pending, p.check.result = .ok ∧
    (cfg.after accept (history.take 7)).processed p.check.event.id.txHash = none ∧
    p.check.readyAfter < (cfg.after accept (history.take 7)).block ∧
    ((cfg.after accept (history.take 7)).challenges p.check.event.id).length = 1 ∧
    1 ≤ max p.check.minVotes ((cfg.after accept (history.take 7)).validators.length / (cfg.after accept (history.take 7)).quorumFactor) := by
  decide +kernel

end Verif.EthEvents
