import Verif.Model.Pool
import Verif.Props.EthBridgeEvents

/-!
# C116, C117: replays of authors' votes on incoming events
-/

namespace Verif.EthBridge

variable {W : Type} (handler : W → EthEvent → W × Bool)

/-- Discovery is past this part of this range, or still there and the author has voted. -/
def Beyond (s : State W) (p : Partition) (author : Nat) : Prop :=
  ∃ a, s.active = some a ∧ a.range.length = p.range.length ∧
    (p.range.start < a.range.start ∨
      (a.range.start = p.range.start ∧ (p.number < a.partition ∨ (a.partition = p.number ∧ hasVoted s.votes author = true))))

/-- Steps other than an administrator's. -/
def notAdmin : Step W → Bool
  | .admin _ _ => false
  | _ => true

theorem setVotes_voted {K : Type} [DecidableEq K] (m : List (K × List Nat)) (k : K) (v : List Nat) (x : Nat) (hx : x ∈ v) :
    hasVoted (setVotes m k v) x = true := by
  unfold hasVoted
  refine List.any_eq_true.2 ⟨(k, v), ?_, by simpa using hx⟩
  induction m with
  | nil => simp [setVotes]
  | cons e m ih =>
    unfold setVotes
    by_cases h : e.1 = k
    · rw [if_pos h]; exact List.mem_cons_self
    · rw [if_neg h]; exact List.mem_cons_of_mem _ ih

theorem setVotes_keeps {K : Type} [DecidableEq K] (m : List (K × List Nat)) (k : K) (v : List Nat) (x : Nat) (hm : hasVoted m x = true)
    (hsub : ∀ y ∈ lookupVotes m k, y ∈ v) : hasVoted (setVotes m k v) x = true := by
  by_cases hxv : x ∈ v
  · exact setVotes_voted m k v x hxv
  unfold hasVoted at hm ⊢
  obtain ⟨e, he, hx⟩ := List.any_eq_true.1 hm
  refine List.any_eq_true.2 ⟨e, ?_, hx⟩
  have hx : x ∈ e.2 := by simpa using hx
  clear hm
  induction m with
  | nil => simp at he
  | cons e' m ih =>
    unfold setVotes
    by_cases h : e'.1 = k
    · rw [if_pos h]
      rcases List.mem_cons.1 he with rfl | he
      · exfalso; apply hxv; apply hsub
        unfold lookupVotes
        rw [List.find?_cons_of_pos (by simpa using h)]
        exact hx
      · exact List.mem_cons_of_mem _ he
    · rw [if_neg h]
      rcases List.mem_cons.1 he with rfl | he
      · exact List.mem_cons_self
      · refine List.mem_cons_of_mem _ (ih ?_ he)
        intro y hy; apply hsub
        unfold lookupVotes at hy ⊢
        rwa [List.find?_cons_of_neg (by simpa using h)]

/-- A vote taken into account by `submitEvents` leaves discovery beyond it. -/
theorem submitEvents_beyond {s : State W} {x : Nat} {p : Partition} (hlen : 0 < p.range.length) (hstart : p.range.start < maxU32) (hnum : p.number < maxU16)
    (h : (submitEvents handler s x p).2 = none) : Beyond (submitEvents handler s x p).1 p x := by
  obtain ⟨act, vs, -, h2, h3, h4, h5, h6, h7⟩ := submitEvents_ok handler h
  rcases h7 with ⟨-, h7⟩ | ⟨-, h7⟩
  · rw [h7]
    refine ⟨act, h2, by rw [h3], .inr ⟨by rw [h3], .inr ⟨h4.symm, ?_⟩⟩⟩
    exact setVotes_voted _ _ _ _ (by rw [tryInsert_new h5 h6]; simp)
  · rw [h7]
    unfold advancePartition
    by_cases hl : p.isLast = true
    · rw [if_pos hl]
      refine ⟨_, rfl, by rw [h3]; rfl, .inl ?_⟩
      rw [h3] at hlen hstart ⊢
      exact Nat.lt_min.mpr ⟨by omega, hstart⟩
    · rw [if_neg hl]
      refine ⟨_, rfl, by rw [h3], .inr ⟨by rw [h3], .inl ?_⟩⟩
      rw [h4] at hnum ⊢
      exact Nat.lt_min.mpr ⟨Nat.lt_succ_self _, hnum⟩

theorem beyond_step {s : State W} {x : Nat} {p : Partition} (hlen : 0 < p.range.length) (hstart : p.range.start < maxU32) (hnum : p.number < maxU16)
    (hb : Beyond s p x) (op : Step W) (hop : notAdmin op = true) : Beyond (step handler s op) p x := by
  have hb0 := hb
  obtain ⟨a, ha, h1, h2⟩ := hb
  cases op with
  | admin _ _ => simp [notAdmin] at hop
  | newAuthors as => exact hb0
  | external w => exact hb0
  | migrate n b =>
    obtain ⟨f, -, -⟩ := migrateBatch_spec n b s
    refine ⟨a, by simp only [step]; rw [f.1]; exact ha, h1, ?_⟩
    simp only [step]; rw [f.2.1]; exact h2
  | addProcessed e acc =>
    simp only [step]
    cases hp : addProcessedEvent s e acc with
    | none => exact hb0
    | some s' =>
      obtain ⟨_, id, rfl⟩ := addProcessedEvent_spec hp
      exact hb0
  | submitBlock y l =>
    simp only [step]
    by_cases hg : isAuthor s y = true
    · rw [if_pos hg]
      have : (submitBlock s y l).2.isSome = true := by
        unfold submitBlock
        by_cases hi : s.instanceValid = false
        · rw [if_pos hi]; rfl
        · rw [if_neg hi, if_pos (by rw [ha]; rfl)]; rfl
      unfold transactional; rw [if_pos this]; exact hb0
    · rw [if_neg hg]; exact hb0
  | submitEvents y q =>
    simp only [step]
    by_cases hg : isAuthor s y = true
    · rw [if_pos hg]
      cases hr : (submitEvents handler s y q).2 with
      | some e => unfold transactional; rw [if_pos (by rw [hr]; rfl)]; exact hb0
      | none =>
        unfold transactional
        rw [if_neg (by rw [hr]; simp)]
        obtain ⟨act, vs, -, g2, g3, g4, g5, g6, g7⟩ := submitEvents_ok handler hr
        rw [ha] at g2; cases g2
        rcases g7 with ⟨-, g7⟩ | ⟨-, g7⟩
        · rw [g7]
          refine ⟨a, ha, h1, ?_⟩
          rcases h2 with h2 | ⟨h2, h3 | ⟨h3, h4⟩⟩
          · exact .inl h2
          · exact .inr ⟨h2, .inl h3⟩
          · refine .inr ⟨h2, .inr ⟨h3, setVotes_keeps _ _ _ _ h4 ?_⟩⟩
            intro z hz; rw [tryInsert_new g5 g6]; exact List.mem_append_left _ hz
        · rw [g7]
          unfold advancePartition
          by_cases hl : q.isLast = true
          · rw [if_pos hl]
            refine ⟨_, rfl, h1, .inl ?_⟩
            refine Nat.lt_min.mpr ⟨?_, hstart⟩
            have : p.range.start ≤ a.range.start := by rcases h2 with h | ⟨h, -⟩ <;> omega
            omega
          · rw [if_neg hl]
            refine ⟨_, rfl, h1, ?_⟩
            rcases h2 with h2 | ⟨h2, h3⟩
            · exact .inl h2
            · refine .inr ⟨h2, .inl (Nat.lt_min.mpr ⟨?_, hnum⟩)⟩
              rcases h3 with h | ⟨h, -⟩ <;> omega
    · rw [if_neg hg]; exact hb0

theorem beyond_refused {s : State W} {x : Nat} {p : Partition} (hb : Beyond s p x) (p' : Partition) (hr : p'.range = p.range) (hn : p'.number = p.number) :
    step handler s (.submitEvents x p') = s := by
  obtain ⟨a, ha, -, h2⟩ := hb
  simp only [step]
  by_cases hg : isAuthor s x = true
  · rw [if_pos hg]
    have : (submitEvents handler s x p').2.isSome = true := by
      unfold submitEvents
      by_cases hi : s.instanceValid = false
      · rw [if_pos hi]; rfl
      rw [if_neg hi, ha]
      dsimp only
      by_cases hp : p'.range ≠ a.range ∨ p'.number ≠ a.partition
      · rw [if_pos hp]; rfl
      rw [if_neg hp]
      have e1 : p'.range = a.range := Classical.byContradiction fun h => hp (.inl h)
      have e2 : p'.number = a.partition := Classical.byContradiction fun h => hp (.inr h)
      have e1' : p.range.start = a.range.start := by rw [← hr, e1]
      have hv : hasVoted s.votes x = true := by
        rcases h2 with h | ⟨-, h | ⟨-, h⟩⟩
        · omega
        · omega
        · exact h
      rw [if_pos hv]; rfl
    unfold transactional; rw [if_pos this]
  · rw [if_neg hg]

/-- **C117, votes on events.** An author's vote on a part of a range that was taken into account changes nothing when a vote of the author on this part (the
same or another) is executed at any later time, whatever happens in between short of an administrator's setting. The range is not empty and below the
largest block number, the part below the largest part number. -/
theorem C117_events (s : State W) (author : Nat) (p : Partition) (hlen : 0 < p.range.length) (hstart : p.range.start < maxU32) (hnum : p.number < maxU16)
    (h : (submitEvents handler s author p).2 = none) (later : List (Step W)) (hop : ∀ op ∈ later, notAdmin op = true)
    (p' : Partition) (hr : p'.range = p.range) (hn : p'.number = p.number) :
    step handler (run handler (submitEvents handler s author p).1 later) (.submitEvents author p') =
      run handler (submitEvents handler s author p).1 later := by
  have hb := submitEvents_beyond handler hlen hstart hnum h
  generalize (submitEvents handler s author p).1 = t at hb
  refine beyond_refused handler (p := p) ?_ p' hr hn
  induction later using List.reverseRecOn with
  | nil => exact hb
  | append_singleton l op ih =>
    rw [run_snoc]
    exact beyond_step handler hlen hstart hnum (ih fun o ho => hop o (by simp [ho])) op (hop op (by simp))

/-- **C117, block votes.** Once an author's vote on the latest block was taken into account, no such vote of the author changes anything at any later
time, whatever happens in between. -/
theorem C117_blocks (s : State W) (author latest : Nat) (h : (submitBlock s author latest).2 = none) (later : List (Step W)) (latest' : Nat) :
    step handler (run handler (submitBlock s author latest).1 later) (.submitBlock author latest') =
      run handler (submitBlock s author latest).1 later := by
  have base : (submitBlock s author latest).1.active.isSome = true ∨ hasVoted (submitBlock s author latest).1.submitted author = true := by
    unfold submitBlock at h ⊢
    by_cases c1 : s.instanceValid = false
    · rw [if_pos c1] at h; cases h
    rw [if_neg c1] at h ⊢
    by_cases c2 : s.active.isSome = true
    · rw [if_pos c2] at h; cases h
    rw [if_neg c2] at h ⊢
    by_cases c3 : hasVoted s.submitted author = true
    · rw [if_pos c3] at h; cases h
    rw [if_neg c3] at h ⊢
    cases c4 : computeStartBlock latest s.rangeSize with
    | none => rw [c4] at h; cases h
    | some b =>
      rw [c4] at h; dsimp only at h ⊢
      cases c5 : tryInsert votesLimit (lookupVotes s.submitted b) author with
      | none => rw [c5] at h; cases h
      | some vs =>
        dsimp only
        have hvs := tryInsert_new (by simpa using c3) c5
        by_cases c6 : supermajority s.authors ≤ (((setVotes s.submitted b vs).map fun e => (e.1, e.2.length)).map Prod.snd).sum
        · rw [if_pos c6]; exact .inl rfl
        · rw [if_neg c6]; exact .inr (setVotes_voted _ _ _ _ (by rw [hvs]; simp))
  generalize (submitBlock s author latest).1 = t at base
  have key : (run handler t later).active.isSome = true ∨ hasVoted (run handler t later).submitted author = true := by
    induction later using List.reverseRecOn with
    | nil => exact base
    | append_singleton l op ih =>
      rw [run_snoc]
      have hv := step_view handler (run handler t l) op
      generalize run handler t l = u at hv ih
      generalize step handler u op = u' at hv
      cases hv with
      | vote a p act vs _ _ hact => exact .inl (by dsimp only; rw [hact]; rfl)
      | approve a p act vs s' _ _ _ _ _ _ _ _ _ _ _ hact' => exact .inl (by rw [hact']; rfl)
      | block a l b vs _ hact hv hb hi hq =>
        rcases ih with h | h
        · exact .inl h
        · refine .inr (setVotes_keeps _ _ _ _ h ?_)
          intro z hz; rw [tryInsert_new hv hi]; exact List.mem_append_left _ hz
      | select => exact .inl rfl
      | quiet op s' _ hact hsub _ _ => rw [hact, hsub]; exact ih
  generalize run handler t later = u at key
  simp only [step]
  by_cases hg : isAuthor u author = true
  · rw [if_pos hg]
    have : (submitBlock u author latest').2.isSome = true := by
      unfold submitBlock
      by_cases c1 : u.instanceValid = false
      · rw [if_pos c1]; rfl
      rw [if_neg c1]
      by_cases c2 : u.active.isSome = true
      · rw [if_pos c2]; rfl
      rw [if_neg c2, if_pos (key.resolve_left c2)]; rfl
    unfold transactional; rw [if_pos this]
  · rw [if_neg hg]

/-- **C116, votes on events (partial: once the part is settled).** After a part of a range was approved, the pool refuses every vote on it, whoever signs
and whatever happens in between. While the part is open a counted vote is admitted again (`C116_full_claim_false_events`). -/
theorem C116_events_partial (s : State W) (author : Nat) (p : Partition) (hlen : 0 < p.range.length) (hstart : p.range.start < maxU32)
    (hnum : p.number < maxU16) (h : (submitEvents handler s author p).2 = none)
    (hsettled : Obs.approved p ∈ ((submitEvents handler s author p).1.log.drop s.log.length)) (later : List (Step W)) (hop : ∀ op ∈ later, notAdmin op = true)
    (who : Nat) (p' : Partition) (hr : p'.range = p.range) (hn : p'.number = p.number) (sigOk : Bool) :
    Pool.admitEvents (run handler (submitEvents handler s author p).1 later) who p' sigOk = false := by
  have hb : ∃ x, Beyond (submitEvents handler s author p).1 p x ∧ hasVoted (submitEvents handler s author p).1.votes x = false ∧
      ∀ a, (submitEvents handler s author p).1.active = some a → a.range.start = p.range.start → a.partition ≠ p.number := by
    have hb := submitEvents_beyond handler hlen hstart hnum h
    obtain ⟨act, vs, -, h2, h3, h4, h5, h6, h7⟩ := submitEvents_ok handler h
    rcases h7 with ⟨-, h7⟩ | ⟨-, h7⟩
    · rw [h7] at hsettled; simp at hsettled
    · refine ⟨author, hb, ?_⟩
      have hv : (submitEvents handler s author p).1.votes = [] := by
        rw [h7]; unfold advancePartition; by_cases hl : p.isLast = true
        · rw [if_pos hl]; rfl
        · rw [if_neg hl]; rfl
      refine ⟨by rw [hv]; rfl, ?_⟩
      intro a ha hs' hp'
      obtain ⟨a', ha', -, hb2⟩ := hb
      rw [ha] at ha'; cases ha'
      rw [hv] at hb2
      rcases hb2 with hb2 | ⟨-, hb2 | ⟨-, hb2⟩⟩
      · omega
      · omega
      · simp [hasVoted] at hb2
  obtain ⟨x, hb, hx, hpos⟩ := hb
  have hclear : ∀ a, (run handler (submitEvents handler s author p).1 later).active = some a → a.range.length = p.range.length ∧
      (p.range.start < a.range.start ∨ (a.range.start = p.range.start ∧ p.number < a.partition)) := by
    generalize (submitEvents handler s author p).1 = t at hb hx hpos
    have key : ∃ a, (run handler t later).active = some a ∧ a.range.length = p.range.length ∧
        (p.range.start < a.range.start ∨ (a.range.start = p.range.start ∧ p.number < a.partition)) := by
      induction later using List.reverseRecOn with
      | nil =>
        obtain ⟨a, ha, h1, h2⟩ := hb
        refine ⟨a, ha, h1, ?_⟩
        rcases h2 with h2 | ⟨h2, h3 | ⟨h3, -⟩⟩
        · exact .inl h2
        · exact .inr ⟨h2, h3⟩
        · exact absurd h3 (hpos a ha h2)
      | append_singleton l op ih =>
        rw [run_snoc]
        obtain ⟨a, ha, h1, h2⟩ := ih fun o ho => hop o (by simp [ho])
        have hs' : ∀ y, Beyond (run handler t l) p y := fun y => ⟨a, ha, h1, by
          rcases h2 with h2 | ⟨h2, h3⟩
          · exact .inl h2
          · exact .inr ⟨h2, .inl h3⟩⟩
        have hv := step_view handler (run handler t l) op
        have hbn := fun y => beyond_step handler hlen hstart hnum (hs' y) op (hop op (by simp))
        generalize run handler t l = u at hv ha hbn
        generalize step handler u op = u' at hv hbn
        cases hv with
        | vote b q act vs => exact ⟨a, ha, h1, h2⟩
        | approve b q act vs s' _ _ hact hr hn hv hi hq hvotes =>
          obtain ⟨a', ha', g1, g2⟩ := hbn x
          refine ⟨a', ha', g1, ?_⟩
          rw [hvotes] at g2
          rcases g2 with g2 | ⟨g2, g3 | ⟨-, g3⟩⟩
          · exact .inl g2
          · exact .inr ⟨g2, g3⟩
          · simp [hasVoted] at g3
        | block a l b vs hauth hact => rw [ha] at hact; cases hact
        | select a l b vs r hauth hact => rw [ha] at hact; cases hact
        | quiet op s' _ hact => exact ⟨a, by rw [hact]; exact ha, h1, h2⟩
    obtain ⟨a, ha, h⟩ := key
    intro a' ha'
    rw [ha] at ha'; cases ha'; exact h
  generalize run handler (submitEvents handler s author p).1 later = t at hclear
  unfold Pool.admitEvents
  cases ht : t.active with
  | none => simp
  | some a =>
    dsimp only
    obtain ⟨-, h2⟩ := hclear a ht
    have : (p'.range == a.range && p'.number == a.partition) = false := by
      rw [Bool.and_eq_false_iff]
      by_cases e : p'.range = a.range
      · right
        have : a.range.start = p.range.start := by rw [← e, hr]
        rw [beq_eq_false_iff_ne, hn]; omega
      · left; simpa using e
    rw [this]; simp

/-- **C116 is false for votes on an open part of a range**: the counted vote is admitted again. -/
theorem C116_full_claim_false_events (s : State W) (author : Nat) (p : Partition) (hauth : isAuthor s author = true)
    (h : (submitEvents handler s author p).2 = none) (hopen : (submitEvents handler s author p).1.active = s.active) :
    Pool.admitEvents (submitEvents handler s author p).1 author p true = true := by
  have ha : (submitEvents handler s author p).1.authors = s.authors := by
    obtain ⟨act, vs, -, h2, h3, h4, h5, h6, h7⟩ := submitEvents_ok handler h
    rcases h7 with ⟨-, h7⟩ | ⟨-, h7⟩
    · rw [h7]
    · rw [h7]; unfold advancePartition; by_cases hl : p.isLast = true
      · rw [if_pos hl]; exact (processPartition_spec handler _ _ _ _).2.2.1
      · rw [if_neg hl]; exact (processPartition_spec handler _ _ _ _).2.2.1
  obtain ⟨act, vs, -, h2, h3, h4, -⟩ := submitEvents_ok handler h
  unfold Pool.admitEvents
  rw [hopen, h2]
  unfold isAuthor at hauth ⊢
  rw [List.contains_iff_mem] at hauth
  simp [h3, h4, ha, hauth]

/-- **C116, block votes (partial: once a range was selected).** After the first range was selected the pool refuses every block vote, whoever signs. -/
theorem C116_blocks_partial (s : State W) (hsel : s.active.isSome = true) (later : List (Step W)) (who : Nat) (sigOk : Bool) :
    Pool.admitBlock (run handler s later) who sigOk = false := by
  have key : (run handler s later).active.isSome = true := by
    induction later using List.reverseRecOn with
    | nil => exact hsel
    | append_singleton l op ih =>
      rw [run_snoc]
      have hv := step_view handler (run handler s l) op
      generalize run handler s l = u at hv ih
      generalize step handler u op = u' at hv
      cases hv with
      | vote a p act vs _ _ hact => dsimp only; rw [hact]; rfl
      | approve a p act vs s' _ _ _ _ _ _ _ _ _ _ _ hact' => rw [hact']; rfl
      | block a l b vs _ hact => exact ih
      | select => rfl
      | quiet op s' _ hact => rw [hact]; exact ih
  unfold Pool.admitBlock
  cases h : (run handler s later).active with
  | none => rw [h] at key; cases key
  | some a => simp

/-- An administrator's restart of discovery clears the votes, and old votes can be handed in again (also against the author's new vote). -/
theorem C117_full_claim_false_events_restart :
    let s := run exHandler ex0 (exSteps.take 2)
    let s1 := (submitEvents exHandler s 1 exPart).1
    let t := step exHandler s1 (.admin [] .restartDiscovery)
    (submitEvents exHandler s 1 exPart).2 = none ∧ t.votes = [] ∧ (step exHandler t (.submitEvents 1 exPart)).votes = [(exPart, [1])] := by
  decide +kernel

/-- Non-vacuity: votes on a block and on events are taken into account; replayed at once and after the range was completed. -/
example :
    (submitBlock ex0 1 158).2 = none ∧
    (submitEvents exHandler (run exHandler ex0 (exSteps.take 2)) 1 exPart).2 = none ∧ 0 < exPart.range.length ∧ exPart.range.start < maxU32 ∧
      exPart.number < maxU16 ∧ (run exHandler ex0 (exSteps.take 3)).votes = [(exPart, [1])] ∧
      (run exHandler ex0 (exSteps.take 4)).active.map Active.range = some ⟨110, 10⟩ ∧
      (submitEvents exHandler (run exHandler ex0 (exSteps.take 3)) 2 exPart).2 = none ∧
      Obs.approved exPart ∈ (submitEvents exHandler (run exHandler ex0 (exSteps.take 3)) 2 exPart).1.log.drop (run exHandler ex0 (exSteps.take 3)).log.length ∧
      (run exHandler ex0 (exSteps.take 2)).active = (run exHandler ex0 (exSteps.take 3)).active ∧ (run exHandler ex0 (exSteps.take 2)).active.isSome = true := by
  decide +kernel

end Verif.EthBridge
