import Verif.Props.EthBridgeEvents
import Mathlib.Data.List.Induction

/-!
# Lemmas about the votes of event discovery: where they stand, how many there are, and when they settle a partition
-/

namespace Verif.EthBridge

variable {W : Type} (handler : W → EthEvent → W × Bool)

/-! ### Vote maps -/

theorem lookup_set {K : Type} [DecidableEq K] (m : List (K × List Nat)) (k : K) (v : List Nat) : lookupVotes (setVotes m k v) k = v := by
  induction m with
  | nil => simp [setVotes, lookupVotes]
  | cons x m ih =>
    by_cases hx : x.1 = k
    · simp [setVotes, hx, lookupVotes]
    · rw [setVotes, if_neg hx]
      unfold lookupVotes at ih ⊢
      rw [List.find?_cons_of_neg (by simpa using hx)]
      exact ih

theorem lookup_of_mem {K : Type} [DecidableEq K] {m : List (K × List Nat)} (hn : (m.map Prod.fst).Nodup) {k : K} {v : List Nat}
    (h : (k, v) ∈ m) : lookupVotes m k = v := by
  induction m with
  | nil => simp at h
  | cons x m ih =>
    simp only [List.map_cons, List.nodup_cons] at hn
    rcases List.mem_cons.1 h with rfl | h
    · simp [lookupVotes]
    · have hx : x.1 ≠ k := fun e => hn.1 (List.mem_map.2 ⟨_, h, e.symm⟩)
      unfold lookupVotes at ih ⊢
      rw [List.find?_cons_of_neg (by simpa using hx)]
      exact ih hn.2 h

theorem hasVoted_iff {K : Type} (m : List (K × List Nat)) (a : Nat) : hasVoted m a = true ↔ ∃ e ∈ m, a ∈ e.2 := by
  unfold hasVoted
  rw [List.any_eq_true]
  simp

theorem hasVoted_set {K : Type} [DecidableEq K] {m : List (K × List Nat)} {k : K} {a b n : Nat} {vs : List Nat}
    (hb : hasVoted m b = false) (hv : hasVoted m a = false) (hi : tryInsert n (lookupVotes m k) a = some vs) (hne : b ≠ a) :
    hasVoted (setVotes m k vs) b = false := by
  rw [← Bool.not_eq_true]
  rw [← Bool.not_eq_true] at hb
  rw [hasVoted_iff] at hb ⊢
  rintro ⟨e, he, hbe⟩
  rcases setVotes_mem m k vs e he with rfl | he
  · rw [tryInsert_new hv hi] at hbe
    rcases List.mem_append.1 hbe with h | h
    · exact hb ⟨_, lookupVotes_mem m k b h, h⟩
    · exact hne (by simpa using h)
  · exact hb ⟨e, he, hbe⟩

theorem tryInsert_some {bound : Nat} {l : List Nat} {a : Nat} (h : l.length < bound) : ∃ vs, tryInsert bound l a = some vs := by
  unfold tryInsert
  by_cases hm : a ∈ l
  · exact ⟨_, if_pos hm⟩
  · rw [if_neg hm, if_pos h]; exact ⟨_, rfl⟩

/-! ### Invariants of histories -/

/-- Votes for partitions are for the active position. -/
theorem votes_position (w : W) (authors : List Nat) (size : Nat) (steps : List (Step W)) :
    ∀ e ∈ (run handler (initial w authors size) steps).votes, ∃ act, (run handler (initial w authors size) steps).active = some act ∧
      e.1.range = act.range ∧ e.1.number = act.partition := by
  induction steps using List.reverseRecOn with
  | nil => simp [run, initial]
  | append_singleton steps op ih =>
    rw [run_snoc]
    have hv := step_view handler (run handler (initial w authors size) steps) op
    generalize run handler (initial w authors size) steps = s at hv ih
    generalize step handler s op = s' at hv
    cases hv with
    | vote a p act vs hauth hok hact hr hn =>
      intro e he
      rcases setVotes_mem _ _ _ _ he with rfl | he
      · exact ⟨act, hact, hr, hn⟩
      · exact ih e he
    | approve a p act vs s' _ _ _ _ _ _ _ _ hvotes => rw [hvotes]; simp
    | block => exact ih
    | select a l b vs r hauth hact =>
      intro e he
      obtain ⟨act, h, -⟩ := ih e he
      rw [hact] at h; cases h
    | quiet op s' _ hact _ _ hvotes =>
      rw [hact]
      rcases hvotes with hv | ⟨n, keep, hv⟩
      · rw [hv]; exact ih
      · rw [hv]; exact fun e he => ih e ((clearVotes_sublist n keep s.votes).mem he)

/-- While a range is active no block votes are stored. -/
theorem active_submitted (w : W) (authors : List Nat) (size : Nat) (steps : List (Step W))
    (h : (run handler (initial w authors size) steps).active ≠ none) : (run handler (initial w authors size) steps).submitted = [] := by
  induction steps using List.reverseRecOn with
  | nil => rfl
  | append_singleton steps op ih =>
    rw [run_snoc] at h ⊢
    have hv := step_view handler (run handler (initial w authors size) steps) op
    generalize run handler (initial w authors size) steps = s at hv ih h
    generalize step handler s op = s' at hv h
    cases hv with
    | vote a p act vs hauth hok hact => exact ih (by rw [hact]; simp)
    | approve a p act vs s' _ _ hact _ _ _ _ _ _ _ hsub => rw [hsub]; exact ih (by rw [hact]; simp)
    | block a l b vs hauth hact => exact absurd hact h
    | select => rfl
    | quiet op s' _ hact hsub => rw [hsub]; exact ih (by rw [← hact]; exact h)

theorem step_valid (s : State W) (op : Step W) (h : s.instanceValid = true) : (step handler s op).instanceValid = true := by
  cases op with
  | submitEvents a p =>
    simp only [step]
    by_cases ha : isAuthor s a = true
    · simp only [ha, if_true, transactional]
      cases hr : (submitEvents handler s a p).2 with
      | some e => simpa using h
      | none =>
        simp only [Option.isSome_none, Bool.false_eq_true, if_false]
        obtain ⟨act, vs, -, -, -, -, -, -, h1 | h1⟩ := submitEvents_ok handler hr
        · rw [h1.2]; exact h
        · rw [h1.2]
          have hp := (processPartition_spec handler { s with log := s.log ++ [.eventVote a p] ++ [.approved p] } s.network act p)
          have e : (processPartition handler { s with log := s.log ++ [.eventVote a p] ++ [.approved p] } s.network act p).instanceValid = true := by
            rw [hp.2.2.2.2.2.1]; exact h
          unfold advancePartition
          split <;> exact e
    · simp only [ha, Bool.false_eq_true, if_false]; exact h
  | submitBlock a l =>
    simp only [step]
    by_cases ha : isAuthor s a = true
    · simp only [ha, if_true, transactional]
      cases hr : (submitBlock s a l).2 with
      | some e => simpa using h
      | none =>
        simp only [Option.isSome_none, Bool.false_eq_true, if_false]
        obtain ⟨b, vs, -, -, -, -, -, h1 | ⟨-, r, -, h1⟩⟩ := submitBlock_ok hr
        · rw [h1.2]; exact h
        · rw [h1]; exact h
    · simp only [ha, Bool.false_eq_true, if_false]; exact h
  | admin keep a =>
    simp only [step, transactional]
    cases a with
    | queueAdditional x =>
      simp only [admin]
      by_cases h1 : alreadyAccepted s x = true
      · simp [h1, h]
      · simp only [h1, Bool.false_eq_true, if_false]
        cases tryInsert 16 s.queue x <;> simp [h]
    | restartDiscovery => simpa [admin] using h
    | setInstance v n => cases v <;> simp [admin, h]
  | migrate n b => exact (migrateBatch_spec n b s).1.2.2.2.2.2.1.trans h
  | addProcessed e acc =>
    simp only [step]
    cases hr : addProcessedEvent s e acc with
    | none => exact h
    | some s1 => obtain ⟨id, rfl⟩ := addProcessedEvent_spec hr; exact h
  | newAuthors as => exact h
  | external w => exact h

/-- The bridge instance is always usable. -/
theorem run_valid (w : W) (authors : List Nat) (size : Nat) (steps : List (Step W)) :
    (run handler (initial w authors size) steps).instanceValid = true := by
  induction steps using List.reverseRecOn with
  | nil => rfl
  | append_singleton steps op ih => rw [run_snoc]; exact step_valid handler _ op ih

/-- There are never more than 256 authors (`MaximumValidatorsBound`). -/
def AuthorsBounded (g : State W) (steps : List (Step W)) : Prop :=
  ∀ pre post, steps = pre ++ post → (run handler g pre).authors.length ≤ 256

theorem AuthorsBounded.prefix {g : State W} {a b : List (Step W)} (h : AuthorsBounded handler g (a ++ b)) : AuthorsBounded handler g a :=
  fun pre post he => h pre (post ++ b) (by rw [he]; simp)

theorem quorum_small {l : List Nat} (h : l.length ≤ 256) : quorum l ≤ 86 := by
  unfold quorum Avn.requiredFor; omega

theorem supermajority_small {l : List Nat} (h : l.length ≤ 256) : supermajority l ≤ 170 := by
  unfold supermajority Avn.requiredForSupermajority; omega

/-- Stored votes stay below the quorum of the largest author set. -/
theorem votes_small (w : W) (authors : List Nat) (size : Nat) (steps : List (Step W))
    (hb : AuthorsBounded handler (initial w authors size) steps) :
    ∀ e ∈ (run handler (initial w authors size) steps).votes, e.2.length < 86 := by
  induction steps using List.reverseRecOn with
  | nil => simp [run, initial]
  | append_singleton steps op ih =>
    rw [run_snoc]
    have hv := step_view handler (run handler (initial w authors size) steps) op
    have hle := hb steps [op] rfl
    replace ih := ih hb.prefix
    generalize run handler (initial w authors size) steps = s at hv ih hle
    generalize step handler s op = s' at hv
    cases hv with
    | vote a p act vs hauth hok hact hr hn hv hi hq =>
      intro e he
      rcases setVotes_mem _ _ _ _ he with rfl | he
      · exact Nat.lt_of_lt_of_le hq (quorum_small hle)
      · exact ih e he
    | approve a p act vs s' _ _ _ _ _ _ _ _ hvotes => rw [hvotes]; simp
    | block => exact ih
    | select => exact ih
    | quiet op s' _ hact _ _ hvotes =>
      rcases hvotes with hv | ⟨n, keep, hv⟩
      · rw [hv]; exact ih
      · rw [hv]; exact fun e he => ih e ((clearVotes_sublist n keep s.votes).mem he)

theorem lookup_small {m : List (Partition × List Nat)} (h : ∀ e ∈ m, e.2.length < 86) (p : Partition) : (lookupVotes m p).length < 86 := by
  by_cases he : lookupVotes m p = []
  · rw [he]; decide
  · obtain ⟨a, ha⟩ := List.exists_mem_of_ne_nil _ he
    exact h _ (lookupVotes_mem m p a ha)

/-! ### Enough votes settle a partition -/

theorem step_vote {s : State W} {act : Active} {p : Partition} {a : Nat} {vs : List Nat} (hi : s.instanceValid = true)
    (ha : s.active = some act) (hr : p.range = act.range) (hn : p.number = act.partition) (hau : a ∈ s.authors)
    (hv : hasVoted s.votes a = false) (ht : tryInsert votesLimit (lookupVotes s.votes p) a = some vs) :
    (vs.length < quorum s.authors → step handler s (.submitEvents a p) =
      { s with log := s.log ++ [.eventVote a p], votes := setVotes s.votes p vs }) ∧
    (quorum s.authors ≤ vs.length → ∃ new, (step handler s (.submitEvents a p)).log = s.log ++ new ∧ Obs.approved p ∈ new) := by
  have hok : (submitEvents handler s a p).2 = none := by
    unfold submitEvents
    rw [if_neg (by rw [hi]; simp), ha]
    dsimp only
    rw [if_neg (by rw [hr, hn]; simp), if_neg (by rw [hv]; simp), ht]
    dsimp only
    by_cases hq : vs.length < quorum s.authors
    · rw [if_pos hq]
    · rw [if_neg hq]
  have hst : step handler s (.submitEvents a p) = (submitEvents handler s a p).1 := by
    have : isAuthor s a = true := by simpa [isAuthor] using hau
    simp [step, this, transactional, hok]
  obtain ⟨act', vs', -, -, -, -, -, h1, h2⟩ := submitEvents_ok handler hok
  rw [ht] at h1; cases h1
  refine ⟨fun hq => ?_, fun hq => ?_⟩
  · rcases h2 with h2 | h2
    · rw [hst, h2.2]
    · omega
  · have hv := step_view handler s (.submitEvents a p)
    rcases h2 with h2 | h2
    · omega
    · generalize hs' : step handler s (.submitEvents a p) = s' at hv
      cases hv with
      | vote _ _ act' vs' _ _ _ _ _ _ hi' hq' => rw [ht] at hi'; cases hi'; omega
      | approve _ _ _ _ s' _ _ _ _ _ _ _ _ _ _ _ _ _ _ new hlog hnew => exact ⟨_, hlog, by simp⟩
      | quiet op s' hlog =>
        exfalso
        rw [hst, h2.2] at hs'
        have hl : ∀ t : State W, (advancePartition t act' p).log = t.log := by
          intro t; unfold advancePartition; split <;> rfl
        obtain ⟨-, -, -, -, -, -, -, -, -, new, hlog', -⟩ := processPartition_spec handler
          { s with log := s.log ++ [.eventVote a p] ++ [.approved p] } s.network act' p
        rw [← hs', hl, hlog'] at hlog
        simp at hlog

/-- The votes of enough further authors settle the partition. -/
theorem votes_settle {act : Active} {p : Partition} (xs : List Nat) : ∀ (s : State W), s.instanceValid = true →
    s.active = some act → p.range = act.range → p.number = act.partition → s.authors.length ≤ 256 →
    (lookupVotes s.votes p).length < 256 → xs.Nodup → (∀ x ∈ xs, x ∈ s.authors ∧ hasVoted s.votes x = false) → xs ≠ [] →
    quorum s.authors ≤ (lookupVotes s.votes p).length + xs.length →
    ∃ new, (run handler s (xs.map fun x => .submitEvents x p)).log = s.log ++ new ∧ Obs.approved p ∈ new := by
  induction xs with
  | nil => intro s _ _ _ _ _ _ _ _ h; exact absurd rfl h
  | cons x xs ih =>
    intro s hi ha hr hn hle hlk hnd hx _ hq
    obtain ⟨hxa, hxv⟩ := hx x (by simp)
    obtain ⟨vs, ht⟩ := tryInsert_some (bound := votesLimit) (a := x) hlk
    obtain ⟨h1, h2⟩ := step_vote handler hi ha hr hn hxa hxv ht
    have hvs := tryInsert_new hxv ht
    have hvl : vs.length = (lookupVotes s.votes p).length + 1 := by rw [hvs]; simp
    obtain ⟨hnx, hnd'⟩ := List.nodup_cons.1 hnd
    rw [List.map_cons]
    change ∃ new, (run handler (step handler s (.submitEvents x p)) _).log = _ ∧ _
    by_cases hlt : vs.length < quorum s.authors
    · rw [h1 hlt]
      have hqs := quorum_small hle
      rw [List.length_cons] at hq
      have hne : xs ≠ [] := by
        rintro rfl
        simp at hq; omega
      have hlk' : lookupVotes (setVotes s.votes p vs) p = vs := lookup_set _ _ _
      obtain ⟨new, hl, hm⟩ := ih { s with log := s.log ++ [.eventVote x p], votes := setVotes s.votes p vs } hi ha hr hn hle
        (by dsimp only; rw [hlk']; omega) hnd' (fun y hy => ⟨(hx y (by simp [hy])).1, by
          dsimp only
          exact hasVoted_set (hx y (by simp [hy])).2 hxv ht (fun e => hnx (e ▸ hy))⟩) hne (by dsimp only; rw [hlk']; omega)
      exact ⟨.eventVote x p :: new, by rw [hl]; simp, by simp [hm]⟩
    · obtain ⟨new, hl, hm⟩ := h2 (by omega)
      obtain ⟨n2, hl2, -⟩ := run_grow handler (step handler s (.submitEvents x p)) (xs.map fun x => .submitEvents x p)
      exact ⟨new ++ n2, by rw [hl2, hl, List.append_assoc], List.mem_append_left _ hm⟩

/-! ### Enough block votes select a start block -/

theorem counts_flat {K : Type} (m : List (K × List Nat)) : ((m.map fun e => (e.1, e.2.length)).map Prod.snd).sum = (flat m).length := by
  unfold flat
  induction m with
  | nil => rfl
  | cons e m ih => simp only [List.map_cons, List.sum_cons, List.flatMap_cons, List.length_append, List.length_map]; rw [ih]

theorem lookup_le_flat {K : Type} [DecidableEq K] (m : List (K × List Nat)) (k : K) : (lookupVotes m k).length ≤ (flat m).length := by
  unfold flat
  induction m with
  | nil => simp [lookupVotes]
  | cons e m ih =>
    simp only [List.flatMap_cons, List.length_append, List.length_map]
    by_cases h : e.1 = k
    · simp [lookupVotes, h]
    · unfold lookupVotes at ih ⊢
      rw [List.find?_cons_of_neg (by simpa using h)]
      omega

theorem blocks_select (xs : List (Nat × Nat)) : ∀ (s : State W), s.instanceValid = true → 0 < s.rangeSize → MapInv s.submitted →
    s.active = none → s.authors.length ≤ 256 → (flat s.submitted).length < 256 → (xs.map Prod.fst).Nodup →
    (∀ x ∈ xs, x.1 ∈ s.authors ∧ hasVoted s.submitted x.1 = false) → xs ≠ [] →
    supermajority s.authors ≤ (flat s.submitted).length + xs.length →
    (run handler s (xs.map fun x => .submitBlock x.1 x.2)).active ≠ none := by
  induction xs with
  | nil => intro s _ _ _ _ _ _ _ _ h; exact absurd rfl h
  | cons x xs ih =>
    intro s hi hz hm ha hle hlk hnd hx _ hq
    obtain ⟨hxa, hxv⟩ := hx x (by simp)
    obtain ⟨b, hb⟩ : ∃ b, computeStartBlock x.2 s.rangeSize = some b := by
      unfold computeStartBlock
      exact ⟨_, if_neg (by omega)⟩
    obtain ⟨vs, ht⟩ := tryInsert_some (bound := votesLimit) (a := x.1) (l := lookupVotes s.submitted b)
      (Nat.lt_of_le_of_lt (lookup_le_flat _ _) hlk)
    obtain ⟨hm', hp⟩ := hm.insert hxv ht
    have hlen : (flat (setVotes s.submitted b vs)).length = (flat s.submitted).length + 1 := by rw [hp.length_eq]; simp
    have hcnt := counts_flat (setVotes s.submitted b vs)
    obtain ⟨hnx, hnd'⟩ := List.nodup_cons.1 (by simpa using hnd : (x.1 :: xs.map Prod.fst).Nodup)
    have hok : (submitBlock s x.1 x.2).2 = none := by
      unfold submitBlock
      rw [if_neg (by rw [hi]; simp), if_neg (by rw [ha]; simp), if_neg (by rw [hxv]; simp), hb]
      dsimp only
      rw [ht]
      dsimp only
      split <;> rfl
    have hst : step handler s (.submitBlock x.1 x.2) = (submitBlock s x.1 x.2).1 := by
      have : isAuthor s x.1 = true := by simpa [isAuthor] using hxa
      simp [step, this, transactional, hok]
    obtain ⟨b', vs', -, -, -, h1, h2, h3⟩ := submitBlock_ok hok
    rw [hb] at h1; cases h1
    rw [ht] at h2; cases h2
    rw [List.map_cons]
    change (run handler (step handler s (.submitBlock x.1 x.2)) _).active ≠ none
    rw [hst]
    have hsm := supermajority_small hle
    rw [List.length_cons] at hq
    rcases h3 with ⟨h3, h4⟩ | ⟨h3, r, -, h4⟩
    · rw [hcnt, hlen] at h3
      rw [h4]
      have hne : xs ≠ [] := by
        rintro rfl
        simp at hq; omega
      exact ih { s with submitted := setVotes s.submitted b vs, log := s.log ++ [.blockVote x.1 b] } hi hz hm' ha hle
        (by dsimp only; omega) hnd' (fun y hy => ⟨(hx y (by simp [hy])).1, by
          dsimp only
          exact hasVoted_set (hx y (by simp [hy])).2 hxv ht (fun e => hnx (List.mem_map.2 ⟨y, hy, e⟩))⟩) hne (by dsimp only; omega)
    · rw [h4]
      -- a selected range stays
      have hkeep : ∀ (ys : List (Step W)) (t : State W), t.active ≠ none → (run handler t ys).active ≠ none := by
        intro ys
        induction ys with
        | nil => intro t h; exact h
        | cons y ys ih' =>
          intro t h
          refine ih' (step handler t y) ?_
          have hv := step_view handler t y
          generalize step handler t y = t' at hv
          cases hv with
          | vote => exact h
          | approve _ _ _ _ _ _ _ _ _ _ _ _ _ _ _ _ hact' => rw [hact']; simp
          | block => exact h
          | select => simp
          | quiet _ _ _ hact => rw [hact]; exact h
      exact hkeep _ _ (by simp)

end Verif.EthBridge
