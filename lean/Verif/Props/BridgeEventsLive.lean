import Verif.Props.EthBridgeEvents

/-!
# C152: event votes, block votes and the administrator's requests about them are honoured
-/

namespace Verif.EthBridge

open Verif.Events

variable {W : Type} (handler : W → EthEvent → W × Bool)

theorem hasVoted_mem_iff {K : Type} (m : List (K × List Nat)) (a : Nat) : hasVoted m a = false ↔ ∀ e ∈ m, a ∉ e.2 := by
  refine ⟨hasVoted_false m a, fun h => ?_⟩
  unfold hasVoted
  rw [List.any_eq_false]
  intro e he
  simpa using h e he

theorem lookupVotes_set {K : Type} [DecidableEq K] (m : List (K × List Nat)) (k k' : K) (v : List Nat) :
    lookupVotes (setVotes m k v) k' = if k' = k then v else lookupVotes m k' := by
  induction m with
  | nil =>
    by_cases h : k = k'
    · simp [setVotes, lookupVotes, h]
    · simp [setVotes, lookupVotes, h, Ne.symm h]
  | cons e m ih =>
    unfold setVotes
    by_cases h : e.1 = k
    · rw [if_pos h]
      by_cases h2 : k' = k
      · subst h2; simp [lookupVotes]
      · rw [if_neg h2]
        have h3 : e.1 ≠ k' := fun h3 => h2 (h3.symm.trans h)
        simp [lookupVotes, Ne.symm h2, h3]
    · rw [if_neg h]
      by_cases h3 : e.1 = k'
      · have h2 : k' ≠ k := fun h2 => h (h3.trans h2)
        rw [if_neg h2]
        simp [lookupVotes, h3]
      · have e1 : lookupVotes (e :: setVotes m k v) k' = lookupVotes (setVotes m k v) k' := by simp [lookupVotes, h3]
        have e2 : lookupVotes (e :: m) k' = lookupVotes m k' := by simp [lookupVotes, h3]
        rw [e1, e2]; exact ih

theorem tryInsert_room {K : Type} [DecidableEq K] {m : List (K × List Nat)} {k : K} {a n : Nat}
    (hv : ∀ e ∈ m, a ∉ e.2) : tryInsert n (lookupVotes m k) a =
      if (lookupVotes m k).length < n then some (lookupVotes m k ++ [a]) else none := by
  have hna : a ∉ lookupVotes m k := fun ha => hv _ (lookupVotes_mem m k a ha) ha
  unfold tryInsert
  rw [if_neg hna]

/-- **C152, event votes.** An author's vote for a partition of events is accepted exactly if the bridge instance is valid, a range is being voted on,
the partition is the next one of that range, the author has no vote standing, and fewer than 256 stand for that partition. -/
theorem C152_event_vote_accepted_iff (s : State W) (a : Nat) (p : Partition) :
    (submitEvents handler s a p).2 = none ↔ s.instanceValid = true ∧
      (∃ act, s.active = some act ∧ p.range = act.range ∧ p.number = act.partition) ∧ (∀ e ∈ s.votes, a ∉ e.2) ∧
      (lookupVotes s.votes p).length < 256 := by
  constructor
  · intro h
    obtain ⟨act, vs, h1, h2, h3, h4, h5, h6, -⟩ := submitEvents_ok handler h
    have h5 := (hasVoted_mem_iff _ _).1 h5
    rw [tryInsert_room h5] at h6
    unfold votesLimit at h6
    refine ⟨h1, ⟨act, h2, h3, h4⟩, h5, ?_⟩
    by_contra hc
    rw [if_neg hc] at h6
    cases h6
  · rintro ⟨h1, ⟨act, h2, h3, h4⟩, h5, h6⟩
    unfold submitEvents
    rw [if_neg (by simp [h1]), h2]
    dsimp only
    rw [if_neg (by simp [h3, h4]), if_neg (by simp [(hasVoted_mem_iff _ _).2 h5]), tryInsert_room h5, if_pos (show _ < votesLimit from h6)]
    dsimp only
    split <;> rfl

/-- **C152, votes below the quorum** stand: the author is added to those for that partition, and nothing else changes. -/
theorem C152_event_vote_stands (s : State W) (a : Nat) (p : Partition) (h : (submitEvents handler s a p).2 = none)
    (ha : a ∈ s.authors) (hq : (lookupVotes s.votes p).length + 1 < Avn.requiredFor s.authors.length) :
    let s' := step handler s (.submitEvents a p)
    lookupVotes s'.votes p = lookupVotes s.votes p ++ [a] ∧ (∀ q, q ≠ p → lookupVotes s'.votes q = lookupVotes s.votes q) ∧
      s' = { s with votes := s'.votes, log := s.log ++ [.eventVote a p] } := by
  obtain ⟨act, vs, h1, h2, h3, h4, h5, h6, h7⟩ := submitEvents_ok handler h
  have hvs := tryInsert_new h5 h6
  have hs : step handler s (.submitEvents a p) = (submitEvents handler s a p).1 := by
    unfold step isAuthor transactional
    dsimp only
    rw [if_pos (by simpa using ha), h]
    rfl
  rcases h7 with ⟨-, h7⟩ | ⟨h7, -⟩
  · rw [hs, h7]
    refine ⟨?_, ?_, rfl⟩
    · dsimp only
      rw [lookupVotes_set, if_pos rfl, hvs]
    · intro q hq
      dsimp only
      rw [lookupVotes_set, if_neg hq]
  · exfalso
    rw [hvs] at h7
    unfold quorum at h7
    simp at h7
    omega

theorem processDiscovered_other (n : Nat) (a : Active) (s : State W) (d : Discovered) (h : Nat) (hne : h ≠ d.event.txHash) :
    (processDiscovered handler n a s d).processed h = s.processed h := by
  unfold processDiscovered
  cases tryFrom d.event.signature with
  | none => rfl
  | some kind =>
    dsimp only
    split
    · split
      · rfl
      · cases h3 : processEvent handler s n d.event with
        | none => rfl
        | some s' =>
          dsimp only
          unfold processEvent at h3
          split at h3
          · cases h3
          · cases h4 : addProcessedEventOn s n d.event true with
            | none => rw [h4] at h3; cases h3
            | some s1 =>
              rw [h4] at h3
              dsimp only at h3
              injection h3 with h3
              subst h3
              unfold addProcessedEventOn at h4
              split at h4
              · obtain ⟨id, rfl⟩ := addProcessedEvent_spec h4
                exact upd_ne _ _ hne
              · cases h4
    · rfl

theorem processDiscovered_fresh (a : Active) (s : State W) (d : Discovered) (kind : ValidEvent) (hv : s.instanceValid = true)
    (hk : tryFrom d.event.signature = some kind) (hf : kind ∈ a.filter) (hb : d.block ≤ a.range.endBlock)
    (hn : s.processed d.event.txHash = none) :
    (processDiscovered handler s.network a s d).log = s.log ++ [.handled d.event,
        if (handler s.world d.event).2 then .accepted d.event else .rejected d.event] ∧
      (processDiscovered handler s.network a s d).world = (handler s.world d.event).1 ∧
      ((processDiscovered handler s.network a s d).processed d.event.txHash).map Prod.snd = some true := by
  have key : ∃ id, processEvent handler s s.network d.event = some { s with
      processed := upd s.processed d.event.txHash (some (id, true))
      world := (handler s.world d.event).1
      log := s.log ++ [.handled d.event, if (handler s.world d.event).2 then .accepted d.event else .rejected d.event] } := by
    unfold processEvent processedEventExists
    rw [if_neg]
    · unfold addProcessedEventOn addProcessedEvent alreadyAccepted
      rw [if_pos (by simp [hv]), hn]
      dsimp only
      rw [if_neg (by simp), hk]
      obtain ⟨id, hid⟩ : ∃ id, (if legacyLiftSignatures.contains d.event.signature = true then some ValidEvent.lifted else some kind) = some id := by
        split <;> exact ⟨_, rfl⟩
      rw [hid]
      exact ⟨id, rfl⟩
    · rw [if_neg (by simp [hv]), hn]; simp
  obtain ⟨id, key⟩ := key
  unfold processDiscovered
  rw [hk]
  dsimp only
  rw [if_pos (by simpa using hf), if_neg (by omega), key]
  exact ⟨rfl, rfl, by simp⟩

theorem fold_handles (a : Active) (l : List Discovered) (hnd : (l.map fun d => d.event.txHash).Nodup) :
    ∀ (s : State W), s.instanceValid = true → ∀ d ∈ l, ∀ kind, tryFrom d.event.signature = some kind → kind ∈ a.filter →
      d.block ≤ a.range.endBlock → s.processed d.event.txHash = none →
      ∃ w : W, ∃ pre post, (l.foldl (processDiscovered handler s.network a) s).log = pre ++
          [.handled d.event, if (handler w d.event).2 then .accepted d.event else .rejected d.event] ++ post ∧ s.log <+: pre := by
  induction l with
  | nil => simp
  | cons x l ih =>
    intro s hv d hd kind hk hf hb hn
    simp only [List.map_cons, List.nodup_cons] at hnd
    rw [List.foldl_cons]
    obtain ⟨fr, -, new, hl, -⟩ := processDiscovered_spec handler s.network a s x
    rcases List.mem_cons.1 hd with rfl | hd
    · obtain ⟨h1, -, -⟩ := processDiscovered_fresh handler a s d kind hv hk hf hb hn
      obtain ⟨-, -, new2, hl2, -⟩ := processFold_spec handler s.network a l (processDiscovered handler s.network a s d)
      exact ⟨s.world, s.log, new2, by rw [hl2, h1], List.prefix_rfl⟩
    · have hne : d.event.txHash ≠ x.event.txHash := fun e => hnd.1 (e ▸ List.mem_map.2 ⟨d, hd, rfl⟩)
      obtain ⟨-, -, -, -, -, f6, f7, -⟩ := fr
      have := ih hnd.2 (processDiscovered handler s.network a s x) (f6.trans hv) d hd kind hk hf hb
        ((processDiscovered_other handler _ a s x _ hne).trans hn)
      rw [f7] at this
      obtain ⟨w, pre, post, h1, h2⟩ := this
      exact ⟨w, pre, post, h1, List.IsPrefix.trans ⟨new, hl.symm⟩ h2⟩

/-- **C152, approved events are applied.** When a vote brings a partition to the quorum, every event in it that is of a kind the range looks for, lies in
the range, and whose transaction is new to the bridge and occurs once in the partition, is handed to the runtime, and recorded as accepted or rejected
as the runtime answers. -/
theorem C152_approved_events_are_applied (s : State W) (a : Nat) (p : Partition) (act : Active) (h : (submitEvents handler s a p).2 = none)
    (ha : a ∈ s.authors) (hact : s.active = some act) (hq : Avn.requiredFor s.authors.length ≤ (lookupVotes s.votes p).length + 1)
    (hnd : (p.events.map fun d => d.event.txHash).Nodup) (d : Discovered) (hd : d ∈ p.events) (kind : ValidEvent)
    (hk : tryFrom d.event.signature = some kind) (hf : kind ∈ act.filter) (hb : d.block ≤ act.range.endBlock)
    (hn : s.processed d.event.txHash = none) :
    ∃ w : W, ∃ pre post, (step handler s (.submitEvents a p)).log = s.log ++ pre ++
      [.handled d.event, if (handler w d.event).2 then .accepted d.event else .rejected d.event] ++ post := by
  obtain ⟨act', vs, h1, h2, h3, h4, h5, h6, h7⟩ := submitEvents_ok handler h
  rw [hact] at h2; cases h2
  have hvs := tryInsert_new h5 h6
  have hs : step handler s (.submitEvents a p) = (submitEvents handler s a p).1 := by
    unfold step isAuthor transactional
    dsimp only
    rw [if_pos (by simpa using ha), h]
    rfl
  rcases h7 with ⟨h7, -⟩ | ⟨-, h7⟩
  · exfalso
    rw [hvs] at h7
    unfold quorum at h7
    simp at h7
    omega
  rw [hs, h7]
  have hlog : ∀ t : State W, (advancePartition t act p).log = t.log := by
    intro t
    unfold advancePartition
    split <;> rfl
  rw [hlog]
  obtain ⟨w, pre, post, g1, ⟨mid, g2⟩⟩ := fold_handles handler act p.events hnd
    { s with log := s.log ++ [.eventVote a p] ++ [.approved p], votes := s.votes.filter (fun e => e.1 ≠ p) } h1 d hd kind hk hf hb hn
  refine ⟨w, [.eventVote a p] ++ [.approved p] ++ mid, post, ?_⟩
  unfold processPartition
  dsimp only at g1 g2 ⊢
  rw [g1, ← g2]
  simp

/-- **C152, block votes.** An author's vote for the first block to look at is accepted exactly if the bridge instance is valid, no range is being voted on, the
author has no block vote standing, ranges have a size, and fewer than 256 votes stand for the block it comes to; while votes are fewer than the supermajority,
the author is added to those for that block and nothing else changes. -/
theorem C152_block_vote_accepted_iff (s : State W) (a latest : Nat) :
    (submitBlock s a latest).2 = none ↔ s.instanceValid = true ∧ s.active = none ∧ (∀ e ∈ s.submitted, a ∉ e.2) ∧
      ∃ b, computeStartBlock latest s.rangeSize = some b ∧ (lookupVotes s.submitted b).length < 256 := by
  constructor
  · intro h
    obtain ⟨b, vs, h1, h2, h3, h4, h5, -⟩ := submitBlock_ok h
    have h3 := (hasVoted_mem_iff _ _).1 h3
    rw [tryInsert_room h3] at h5
    unfold votesLimit at h5
    refine ⟨h1, h2, h3, b, h4, ?_⟩
    by_contra hc
    rw [if_neg hc] at h5
    cases h5
  · rintro ⟨h1, h2, h3, b, h4, h5⟩
    unfold submitBlock
    rw [if_neg (by simp [h1]), if_neg (by simp [h2]), if_neg (by simp [(hasVoted_mem_iff _ _).2 h3]), h4]
    dsimp only
    rw [tryInsert_room h3, if_pos (show _ < votesLimit from h5)]
    dsimp only
    split <;> rfl

/-- The block a vote comes to: some five range lengths before the latest one seen, rounded down to a multiple of the range length. There is none only if
ranges have no size. -/
theorem C152_voted_block (latest size : Nat) (hs : 0 < size) (h5 : 5 * size < 2 ^ 32) :
    ∃ b, computeStartBlock latest size = some b ∧ size ∣ b ∧ b ≤ latest - 5 * size ∧ latest - 5 * size < b + size := by
  unfold computeStartBlock
  have : 5 * size % pow32 = 5 * size := Nat.mod_eq_of_lt h5
  rw [this, if_neg (by omega)]
  refine ⟨_, rfl, Nat.dvd_sub_mod _, Nat.sub_le _ _, ?_⟩
  have := Nat.mod_lt (latest - 5 * size) hs
  omega

theorem C152_block_vote_stands (s : State W) (a latest b : Nat) (h : (submitBlock s a latest).2 = none) (ha : a ∈ s.authors)
    (hb : computeStartBlock latest s.rangeSize = some b)
    (hq : ((s.submitted.map fun e => e.2.length).sum) + 1 < Avn.requiredForSupermajority s.authors.length)
    (hn : (s.submitted.map Prod.fst).Nodup) :
    let s' := step handler s (.submitBlock a latest)
    lookupVotes s'.submitted b = lookupVotes s.submitted b ++ [a] ∧ (∀ c, c ≠ b → lookupVotes s'.submitted c = lookupVotes s.submitted c) ∧
      s' = { s with submitted := s'.submitted, log := s.log ++ [.blockVote a b] } := by
  obtain ⟨b', vs, h1, h2, h3, h4, h5, h6⟩ := submitBlock_ok h
  rw [hb] at h4; cases h4
  have hvs := tryInsert_new h3 h5
  have hs : step handler s (.submitBlock a latest) = (submitBlock s a latest).1 := by
    unfold step isAuthor transactional
    dsimp only
    rw [if_pos (by simpa using ha), h]
    rfl
  rcases h6 with ⟨-, h6⟩ | ⟨h6, -⟩
  · rw [hs, h6]
    refine ⟨?_, ?_, rfl⟩
    · dsimp only
      rw [lookupVotes_set, if_pos rfl, hvs]
    · intro q hq
      dsimp only
      rw [lookupVotes_set, if_neg hq]
  · exfalso
    rw [hvs] at h6
    have hp := (setVotes_flat s.submitted b a hn).length_eq
    have hl : ∀ m : List (Nat × List Nat), (m.flatMap fun e => e.2.map fun v => (v, e.1)).length = (m.map fun e => e.2.length).sum := by
      intro m; simp [List.length_flatMap]
    rw [List.length_cons, hl, hl] at hp
    rw [List.map_map] at h6
    have : ((setVotes s.submitted b (lookupVotes s.submitted b ++ [a])).map (Prod.snd ∘ fun e => (e.1, e.2.length))) =
      (setVotes s.submitted b (lookupVotes s.submitted b ++ [a])).map fun e => e.2.length := rfl
    rw [this, hp] at h6
    unfold supermajority at h6
    omega

/-- **C152, the administrator's requests.** Root's request that a transaction be looked for is accepted exactly if the bridge has not accepted that transaction, and it
is on the list already or fewer than 16 are; the transaction is then on the list, and nothing else changes. A restart is always carried out and, with at most 100
partitions voted for, leaves no event vote. -/
theorem C152_admin_accepted_iff (s : State W) (keep : List Nat) (h : Nat) :
    ((admin s keep (.queueAdditional h)).2 = none ↔
      (∀ v, s.processed h ≠ some (v, true)) ∧ (h ∈ s.queue ∨ s.queue.length < 16)) ∧
    ((admin s keep (.queueAdditional h)).2 = none → (admin s keep (.queueAdditional h)).1 =
      { s with queue := if h ∈ s.queue then s.queue else s.queue ++ [h] }) ∧
    (admin s keep .restartDiscovery).2 = none ∧
    (s.votes.length ≤ 100 → (admin s keep .restartDiscovery).1 = { s with votes := [] }) := by
  have hacc : alreadyAccepted s h = false ↔ ∀ v, s.processed h ≠ some (v, true) := by
    unfold alreadyAccepted
    cases e : s.processed h with
    | none => simp
    | some x =>
      obtain ⟨v, b⟩ := x
      cases b <;> simp
  refine ⟨?_, ?_, rfl, ?_⟩
  · rw [← hacc]
    unfold admin
    dsimp only
    by_cases h1 : alreadyAccepted s h = true
    · rw [if_pos h1, h1]; simp
    · rw [if_neg h1]
      unfold tryInsert
      by_cases h2 : h ∈ s.queue
      · simp [h2, h1]
      · by_cases h3 : s.queue.length < 16
        · simp [h2, h1, h3]
        · simp [h2, h1, h3]
  · unfold admin
    dsimp only
    by_cases h1 : alreadyAccepted s h = true
    · rw [if_pos h1]; intro h; cases h
    · rw [if_neg h1]
      unfold tryInsert
      by_cases h2 : h ∈ s.queue
      · simp [h2]
      · by_cases h3 : s.queue.length < 16
        · simp [h2, h3]
        · simp [h2, h3]
  · intro hl
    unfold admin clearVotes
    dsimp only
    rw [if_pos hl]

/-! ### Examples -/

/-- A first event vote that stands, a second that brings the quorum and hands the lift to the runtime, and votes that are refused. -/
example :
    let s := run exHandler ex0 (exSteps.take 2)
    let s1 := run exHandler ex0 (exSteps.take 3)
    (submitEvents exHandler s 1 exPart).2 = none ∧ Avn.requiredFor s.authors.length = 2 ∧
      lookupVotes s1.votes exPart = [1] ∧ (submitEvents exHandler s1 1 exPart).2 = some .eventVoteExists ∧
      (submitEvents exHandler s1 2 exPart2).2 = some .nonActiveRange ∧ (submitEvents exHandler s1 2 exPart).2 = none ∧
      s1.processed exEvent.txHash = none ∧ (step exHandler s1 (.submitEvents 2 exPart)).world = 1 := by decide +kernel
/-- A block vote that stands. -/
example : (submitBlock ex0 1 158).2 = none ∧ computeStartBlock 158 10 = some 100 ∧ (submitBlock (step exHandler ex0 (.submitBlock 1 158)) 1 158).2 = some .eventVoteExists ∧
    Avn.requiredForSupermajority 4 = 2 := by
  decide +kernel
/-- A transaction to look for, and one that was accepted. -/
example : (admin ex0 [] (.queueAdditional 9)).2 = none ∧
    (admin (run exHandler ex0 (exSteps.take 4)) [] (.queueAdditional 77)).2 = some .eventAlreadyAccepted := by decide +kernel

end Verif.EthBridge
