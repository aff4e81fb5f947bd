import Verif.Model.Pool
import Verif.Props.Summary
import Verif.Lemmas.SummaryWorker

/-!
# C116, C117: replays of authors' reports to `summary`

The signatures of authors' reports are public once they are in a block. C116: a report that was executed is refused by the pool from then on.
C117: a report that was executed changes nothing when it is executed again.
-/

namespace Verif.Summary

open Verif Verif.Pool

variable {refOf : RootId → Nat → Nat}

/-- The validator has voted on the root. -/
def Voted (s : State) (rid : RootId) (x : Nat) : Prop := ∃ v, s.votes rid = some v ∧ v.hasVoted x = true

/-- The vote on the root took place and is over. -/
def Ended (s : State) (rid : RootId) : Prop := (s.votes rid).isSome = true ∧ s.pending rid.range ≠ some rid.ingress

theorem voted_grows {vs : List Avn.Validator} {act : Bool} {v v' : Avn.Session} {y : Nat} {b : Bool} (h : Avn.castVote vs act v y b = .ok v') :
    v'.hasVoted y = true ∧ ∀ x, v.hasVoted x = true → v'.hasVoted x = true := by
  obtain ⟨-, -, -, rfl⟩ := castVote_ok h
  cases b
  · refine ⟨by simp [Avn.Session.hasVoted], fun x hx => ?_⟩
    simp only [Avn.Session.hasVoted, Bool.or_eq_true, List.contains_iff_mem, Bool.false_eq_true, if_false, List.mem_append] at hx ⊢
    rcases hx with hx | hx
    · exact .inl hx
    · exact .inr (.inl hx)
  · refine ⟨by simp [Avn.Session.hasVoted], fun x hx => ?_⟩
    simp only [Avn.Session.hasVoted, Bool.or_eq_true, List.contains_iff_mem, if_true, List.mem_append] at hx ⊢
    rcases hx with hx | hx
    · exact .inl (.inl hx)
    · exact .inr hx

theorem accepted_keeps {s s1 : State} {rid : RootId} {d : RootData} {pub : Option Nat} (h : Accepted refOf s rid d pub s1) :
    s1.votes = s.votes ∧ s1.pending = s.pending := by
  cases h with
  | submitted => exact ⟨rfl, rfl⟩
  | processed _ hp _ => cases hp <;> exact ⟨rfl, rfl⟩

theorem processed_keeps {s s1 : State} {rid : RootId} {d : RootData} {pub : Option Nat} (h : Processed s rid d pub s1) :
    s1.votes = s.votes ∧ s1.pending = s.pending := by cases h <;> exact ⟨rfl, rfl⟩

theorem voted_micro {s s' : State} {op : Step} (h : Micro refOf op s s') {rid : RootId} {x : Nat} (hv : Voted s rid x) : Voted s' rid x := by
  obtain ⟨v, h1, h2⟩ := hv
  cases h with
  | frame _ evs hf => exact ⟨v, by rw [hf.2.2.2.1]; exact h1, h2⟩
  | recorded b hh k who ve hop hauth hslot hk htgt hfree hnone =>
    refine ⟨v, ?_, h2⟩
    have : rid ≠ ⟨⟨s.nextBlock, b⟩, k⟩ := by intro e; rw [← e, h1] at hnone; cases hnone
    simp only [recordEffects]
    rw [upd_ne _ _ this]; exact h1
  | voted r y a p q w w' hop hw hc =>
    obtain ⟨g1, g2⟩ := voted_grows hc
    by_cases e : rid = r
    · subst e
      rw [hw] at h1; cases h1
      exact ⟨w', by simp, g2 x h2⟩
    · exact ⟨v, by dsimp only; rw [upd_ne _ _ e]; exact h1, h2⟩
  | approved r w d pub s1 hval hw hd happ hacc => exact ⟨v, by simp only [markValidated]; rw [(accepted_keeps hacc).1]; exact h1, h2⟩
  | rejected => exact ⟨v, h1, h2⟩
  | resolvedAccept r ref d pub s1 hop hr hst hd hp => exact ⟨v, by simp only [cleanup]; rw [(processed_keeps hp).1]; exact h1, h2⟩
  | resolvedReject => exact ⟨v, h1, h2⟩
  | completed r ref d pub s1 hop hr hd hp => exact ⟨v, by simp only [cleanup]; rw [(processed_keeps hp).1]; exact h1, h2⟩
  | stuck => exact ⟨v, h1, h2⟩
  | review => exact ⟨v, h1, h2⟩
  | finalised => exact ⟨v, h1, h2⟩

theorem ended_micro {s s' : State} {op : Step} (h : Micro refOf op s s') {rid : RootId} (hv : Ended s rid) : Ended s' rid := by
  obtain ⟨h1, h2⟩ := hv
  have clear : ∀ r : Range, upd s.pending r none rid.range ≠ some rid.ingress := by
    intro r
    rw [upd_apply]
    by_cases e : rid.range = r
    · rw [if_pos e]; simp
    · rw [if_neg e]; exact h2
  cases h with
  | frame _ evs hf => exact ⟨by rw [hf.2.2.2.1]; exact h1, by rw [hf.2.2.2.2.1]; exact h2⟩
  | recorded b hh k who ve hop hauth hslot hk htgt hfree hnone =>
    have hne : rid ≠ ⟨⟨s.nextBlock, b⟩, k⟩ := by intro e; rw [e, hnone] at h1; cases h1
    refine ⟨by simp only [recordEffects]; rw [upd_ne _ _ hne]; exact h1, ?_⟩
    simp only [recordEffects]
    rw [upd_apply]
    by_cases e : rid.range = ⟨s.nextBlock, b⟩
    · rw [if_pos e]
      intro e2
      apply hne
      obtain ⟨r, i⟩ := rid
      simp only [Option.some.injEq] at e e2
      rw [e, e2]
    · rw [if_neg e]; exact h2
  | voted r y a p q w w' hop hw hc =>
    refine ⟨?_, h2⟩
    dsimp only
    rw [upd_apply]
    by_cases e : rid = r
    · rw [if_pos e]; rfl
    · rw [if_neg e]; exact h1
  | approved r w d pub s1 hval hw hd happ hacc =>
    obtain ⟨k1, k2⟩ := accepted_keeps hacc
    refine ⟨by simp only [markValidated]; rw [k1]; exact h1, ?_⟩
    simp only [markValidated]; rw [k2]; exact clear _
  | rejected r w d creator => exact ⟨h1, clear _⟩
  | resolvedAccept r ref d pub s1 hop hr hst hd hp =>
    obtain ⟨k1, k2⟩ := processed_keeps hp
    exact ⟨by simp only [cleanup]; rw [k1]; exact h1, by simp only [cleanup]; rw [k2]; exact h2⟩
  | resolvedReject => exact ⟨h1, h2⟩
  | completed r ref d pub s1 hop hr hd hp =>
    obtain ⟨k1, k2⟩ := processed_keeps hp
    exact ⟨by simp only [cleanup]; rw [k1]; exact h1, by simp only [cleanup]; rw [k2]; exact h2⟩
  | stuck => exact ⟨h1, h2⟩
  | review => exact ⟨h1, h2⟩
  | finalised => exact ⟨h1, h2⟩

theorem run_keeps {P : State → Prop} (hm : ∀ (op : Step) (s s' : State), Micro refOf op s s' → P s → P s') {s : State} (hs : P s) (steps : List Step) :
    P (run refOf s steps) := by
  induction steps using List.reverseRecOn with
  | nil => exact hs
  | append_singleton steps op ih =>
    rw [run_snoc]
    have hv := step_view (refOf := refOf) (run refOf s steps) op
    generalize step refOf (run refOf s steps) op = s' at hv
    cases hv with
    | same => exact ih
    | one h => exact hm _ _ _ h ih
    | two rid y a p q v v' hop hv hc h2 =>
      exact hm _ _ _ (h2 (.cancelled 0)) (hm _ _ _ (Micro.voted (refOf := refOf) rid y a p q v v' hop hv hc) ih)

theorem endVoting_ended {s s' : State} {rid : RootId} {pub : Option Nat} {prop : Bool} (h : endVoting refOf s rid pub prop = .ok s') : Ended s' rid := by
  unfold endVoting at h
  by_cases hval : sessionValid s rid = false
  · rw [if_pos hval] at h; simp at h
  rw [if_neg hval] at h
  cases hv : s.votes rid with
  | none => rw [hv] at h; simp at h
  | some v =>
    cases hd : getRoot s.roots rid with
    | none => rw [hv, hd] at h; simp at h
    | some d =>
      rw [hv, hd] at h
      dsimp only at h
      by_cases he : (v.hasOutcome || decide (s.block ≥ v.endOfVotingPeriod)) = false
      · rw [if_pos he] at h; simp at h
      rw [if_neg he] at h
      by_cases ha : v.isApproved = true
      · rw [if_pos ha] at h
        cases hacc : acceptRoot refOf s rid d pub prop with
        | error e => rw [hacc] at h; simp at h
        | ok s1 =>
          rw [hacc] at h
          dsimp only at h
          cases hb : addBlocks rid.range.toBlock 1 with
          | error e => rw [hb] at h; simp at h
          | ok n =>
            rw [hb] at h
            dsimp only at h
            cases h
            refine ⟨?_, by simp [markValidated]⟩
            simp only [markValidated]
            rw [(accepted_keeps (acceptRoot_ok hd hacc)).1, hv]; rfl
      · rw [if_neg ha] at h
        cases hc : d.addedBy with
        | none => rw [hc] at h; simp at h
        | some creator =>
          rw [hc] at h
          dsimp only at h
          cases h
          exact ⟨by dsimp only; rw [hv]; rfl, by simp⟩

theorem castVote_voted {s s' : State} {rid : RootId} {x : Nat} {a : Bool} {pub : Option Nat} {prop : Bool}
    (h : castVote refOf s rid x a pub prop = .ok s') : Voted s' rid x := by
  unfold castVote at h
  cases hv : s.votes rid with
  | none => rw [hv] at h; simp at h
  | some v =>
    rw [hv] at h
    dsimp only at h
    cases hc : Avn.castVote s.validators (sessionActive s rid) v x a with
    | error e => rw [hc] at h; simp at h
    | ok v' =>
      rw [hc] at h
      dsimp only at h
      have h1 : Voted { s with votes := upd s.votes rid (some v') } rid x := ⟨v', by simp, (voted_grows hc).1⟩
      by_cases he : (v'.hasOutcome && sessionActive { s with votes := upd s.votes rid (some v') } rid) = true
      · rw [if_pos he] at h
        exact voted_micro (endVoting_micro (.cancelled 0) h) h1
      · rw [if_neg he] at h
        cases h; exact h1

theorem ended_not_valid {s : State} {rid : RootId} (h : Ended s rid) : sessionValid s rid = false := by
  cases hv : sessionValid s rid with
  | false => rfl
  | true =>
    obtain ⟨_, _, _, h2, _⟩ := (sessionValid_iff s rid).1 hv
    exact absurd h2 h.2

theorem not_valid_not_active {s : State} {rid : RootId} (h : sessionValid s rid = false) : sessionActive s rid = false := by
  unfold sessionActive
  cases s.votes rid with
  | none => rfl
  | some v => simp [h]

/-! ### C116: refused by the pool -/

/-- **C116, votes.** After a validator's vote on a root was counted, the pool refuses every vote of this validator on this root, whatever happens in
between. -/
theorem C116_vote (s s1 : State) (rid : RootId) (voter : Nat) (approve : Bool) (pub : Option Nat) (prop : Bool)
    (h : castVote refOf s rid voter approve pub prop = .ok s1) (later : List Step) (approve' sigOk : Bool) :
    admitVote (run refOf s1 later) rid voter approve' sigOk = false := by
  obtain ⟨v, h1, h2⟩ := run_keeps (refOf := refOf) (P := fun s => Voted s rid voter) (fun _ _ _ m hv => voted_micro m hv) (castVote_voted h) later
  obtain ⟨e, he⟩ : ∃ e, Avn.validateVote (run refOf s1 later).validators (sessionActive (run refOf s1 later) rid) v voter = .error e := by
    unfold Avn.validateVote
    by_cases g1 : Avn.isValidator (run refOf s1 later).validators voter = false
    · rw [if_pos g1]; exact ⟨_, rfl⟩
    rw [if_neg g1]
    by_cases g2 : sessionActive (run refOf s1 later) rid = false
    · rw [if_pos g2]; exact ⟨_, rfl⟩
    rw [if_neg g2, if_pos h2]; exact ⟨_, rfl⟩
  unfold admitVote
  rw [h1]
  dsimp only
  rw [he, Bool.and_false]

/-- **C116, ends of votes.** After the vote on a root was ended, the pool refuses every further end of it and every vote on the root, whoever signs. -/
theorem C116_end (s s1 : State) (rid : RootId) (pub : Option Nat) (prop : Bool) (h : endVoting refOf s rid pub prop = .ok s1) (later : List Step)
    (who : Nat) (approve sigOk : Bool) :
    admitEnd (run refOf s1 later) rid who sigOk = false ∧ admitVote (run refOf s1 later) rid who approve sigOk = false := by
  have he := run_keeps (refOf := refOf) (P := fun s => Ended s rid) (fun _ _ _ m hv => ended_micro m hv) (endVoting_ended h) later
  have h1 := ended_not_valid he
  have h2 := not_valid_not_active h1
  refine ⟨by simp [admitEnd, h1], ?_⟩
  unfold admitVote
  cases hv : (run refOf s1 later).votes rid with
  | none => simp
  | some v =>
    dsimp only
    obtain ⟨e, he⟩ : ∃ e, Avn.validateVote (run refOf s1 later).validators (sessionActive (run refOf s1 later) rid) v who = .error e := by
      unfold Avn.validateVote
      by_cases g1 : Avn.isValidator (run refOf s1 later).validators who = false
      · rw [if_pos g1]; exact ⟨_, rfl⟩
      rw [if_neg g1, if_pos h2]; exact ⟨_, rfl⟩
    rw [he, Bool.and_false]

/-- **C116, slots.** After the slot was advanced, the pool refuses every further advance signed for that slot or an earlier one. -/
theorem C116_advance (s s1 : State) (who : Nat) (h : updateSlot s who = .ok s1) (later : List Step) (slot : Nat) (hs : slot ≤ s.currentSlot)
    (who' : Nat) (sigOk : Bool) : admitAdvance (run refOf s1 later) slot who' sigOk = false := by
  obtain ⟨-, -, v, -, -, rfl⟩ := updateSlot_ok h
  have := slot_mono refOf (s := { s with
            currentSlot := s.currentSlot + 1
            slotValidator := some v
            nextSlotAt := s.nextSlotAt + s.schedulePeriod
            log := s.log ++ noSummaryOffence s ++
              [.slotAdvanced who (s.currentSlot + 1) v (s.nextSlotAt + s.schedulePeriod)] }) later
  dsimp only at this
  unfold admitAdvance
  rw [beq_false_of_ne (by omega : slot ≠ _)]
  simp

/-- **C116 is false for roots.** A recorded root is admitted again at once: the state check is only that the signer is the slot's validator, and recording
does not change that. -/
theorem C116_full_claim_false_roots (s s1 : State) (b hash k who : Nat) (sigOk : Bool) (h : recordSummary s b hash k who = .ok s1) :
    admitRecord s1 who sigOk = admitRecord s who sigOk := by
  unfold recordSummary at h
  by_cases h1 : wrapInc64 s.totalIngresses ≠ k
  · rw [if_pos h1] at h; simp at h
  rw [if_neg h1] at h
  by_cases h2 : Avn.isValidator s.validators who = false
  · rw [if_pos h2] at h; simp at h
  rw [if_neg h2] at h
  dsimp only at h
  cases h3 : targetBlock s with
  | error e => rw [h3] at h; simp at h
  | ok t =>
    rw [h3] at h
    dsimp only at h
    by_cases h4 : neitherPendingNorApproved s ⟨s.nextBlock, b⟩ = false
    · rw [if_pos h4] at h; simp at h
    rw [if_neg h4] at h
    by_cases h5 : (s.votes ⟨⟨s.nextBlock, b⟩, k⟩).isSome = true
    · rw [if_pos h5] at h; simp at h
    rw [if_neg h5] at h
    by_cases h6 : b ≠ t
    · rw [if_pos h6] at h; simp at h
    rw [if_neg h6] at h
    cases h7 : addBlocks s.block s.votingPeriod with
    | error e => rw [h7] at h; simp at h
    | ok ve => rw [h7] at h; dsimp only at h; cases h; rfl

/-- **C116 is false for challenges of slots.** Any well-formed challenge a validator ever signed is admitted as long as the account is a validator's,
whatever the state: the slot may be long over. -/
theorem C116_full_claim_false_slot_challenges (s : State) (who n : Nat) (h : Avn.isValidator s.validators who = true) :
    admitSlotChallenge s (some n) who true = true := by simp [admitSlotChallenge, h]

/-! ### C117: without effect when executed again -/

/-- **C117, votes and their ends.** A vote that was counted, and the end of a vote that was ended, change nothing when executed again at any later time. -/
theorem C117_vote (s s1 : State) (rid : RootId) (voter : Nat) (approve : Bool) (pub : Option Nat) (prop : Bool)
    (h : castVote refOf s rid voter approve pub prop = .ok s1) (later : List Step) (approve' : Bool) (pub' : Option Nat) (prop' : Bool) :
    step refOf (run refOf s1 later) (.vote rid voter approve' pub' prop') = run refOf s1 later := by
  obtain ⟨v, h1, h2⟩ := run_keeps (refOf := refOf) (P := fun s => Voted s rid voter) (fun _ _ _ m hv => voted_micro m hv) (castVote_voted h) later
  simp only [step]
  cases hc : castVote refOf (run refOf s1 later) rid voter approve' pub' prop' with
  | error e => rfl
  | ok s2 =>
    exfalso
    unfold castVote at hc
    rw [h1] at hc
    dsimp only at hc
    cases hv : Avn.castVote (run refOf s1 later).validators (sessionActive (run refOf s1 later) rid) v voter approve' with
    | error e => rw [hv] at hc; cases hc
    | ok v' =>
      have := (castVote_ok hv).2.2.1
      rw [this] at h2; cases h2

/-- See `C117_vote`. -/
theorem C117_end (s s1 : State) (rid : RootId) (pub : Option Nat) (prop : Bool) (h : endVoting refOf s rid pub prop = .ok s1) (later : List Step)
    (who : Nat) (pub' : Option Nat) (prop' : Bool) :
    step refOf (run refOf s1 later) (.endVoting rid who pub' prop') = run refOf s1 later := by
  have he := run_keeps (refOf := refOf) (P := fun s => Ended s rid) (fun _ _ _ m hv => ended_micro m hv) (endVoting_ended h) later
  have h1 := ended_not_valid he
  simp only [step]
  by_cases hg : Avn.isValidator (run refOf s1 later).validators who = true
  · rw [if_pos hg]
    unfold endVoting
    rw [if_pos h1]; rfl
  · rw [if_neg hg]

theorem total_grows (s : State) (steps : List Step) (hb : s.totalIngresses + steps.length < 2 ^ 64) :
    s.totalIngresses ≤ (run refOf s steps).totalIngresses ∧ (run refOf s steps).totalIngresses ≤ s.totalIngresses + steps.length := by
  induction steps using List.reverseRecOn with
  | nil => simp [run]
  | append_singleton steps op ih =>
    simp only [List.length_append, List.length_singleton] at hb ⊢
    have ih := ih (by omega)
    rw [run_snoc]
    rcases step_total (refOf := refOf) (run refOf s steps) op with h | ⟨h, -⟩
    · rw [h]
      unfold wrapInc64 pow64
      rw [Nat.mod_eq_of_lt (by omega)]
      omega
    · rw [h]; omega

/-- **C117, roots.** A root that was recorded changes nothing when its report is executed again (fewer than `2 ^ 64` actions). -/
theorem C117_record (s s1 : State) (b hash k who : Nat) (hrun : step refOf s (.record b hash k who) = s1) (hne : s1 ≠ s) (later : List Step)
    (hb : s.totalIngresses + later.length + 2 < 2 ^ 64) (b' hash' who' : Nat) :
    step refOf (run refOf s1 later) (.record b' hash' k who') = run refOf s1 later := by
  have htot : s1.totalIngresses = k ∧ k = s.totalIngresses + 1 := by
    have hv := step_view (refOf := refOf) s (.record b hash k who)
    rw [hrun] at hv
    simp only [step] at hrun
    by_cases hg : s.slotValidator = some who ∧ Avn.isValidator s.validators who = true
    · rw [if_pos hg] at hrun
      cases hr : recordSummary s b hash k who with
      | error e => rw [hr] at hrun; exact absurd hrun.symm hne
      | ok s' =>
        rw [hr] at hrun
        simp only [commit] at hrun
        subst hrun
        unfold recordSummary at hr
        by_cases h1 : wrapInc64 s.totalIngresses ≠ k
        · rw [if_pos h1] at hr; simp at hr
        rw [if_neg h1] at hr
        by_cases h2 : Avn.isValidator s.validators who = false
        · rw [if_pos h2] at hr; simp at hr
        rw [if_neg h2] at hr
        dsimp only at hr
        have hk : k = s.totalIngresses + 1 := by
          have : wrapInc64 s.totalIngresses = k := Decidable.not_not.mp h1
          rw [← this]; unfold wrapInc64 pow64; exact Nat.mod_eq_of_lt (by omega)
        cases h3 : targetBlock s with
        | error e => rw [h3] at hr; simp at hr
        | ok t =>
          rw [h3] at hr
          dsimp only at hr
          by_cases h4 : neitherPendingNorApproved s ⟨s.nextBlock, b⟩ = false
          · rw [if_pos h4] at hr; simp at hr
          rw [if_neg h4] at hr
          by_cases h5 : (s.votes ⟨⟨s.nextBlock, b⟩, k⟩).isSome = true
          · rw [if_pos h5] at hr; simp at hr
          rw [if_neg h5] at hr
          by_cases h6 : b ≠ t
          · rw [if_pos h6] at hr; simp at hr
          rw [if_neg h6] at hr
          cases h7 : addBlocks s.block s.votingPeriod with
          | error e => rw [h7] at hr; simp at hr
          | ok ve => rw [h7] at hr; dsimp only at hr; cases hr; exact ⟨rfl, hk⟩
    · rw [if_neg hg] at hrun; exact absurd hrun.symm hne
  obtain ⟨h1, h2⟩ := htot
  have hg := total_grows (refOf := refOf) s1 later (by omega)
  have hw : wrapInc64 (run refOf s1 later).totalIngresses ≠ k := by
    unfold wrapInc64 pow64
    rw [Nat.mod_eq_of_lt (by omega)]; omega
  simp only [step]
  by_cases hg : (run refOf s1 later).slotValidator = some who' ∧ Avn.isValidator (run refOf s1 later).validators who' = true
  · rw [if_pos hg]
    unfold recordSummary
    rw [if_pos hw]; rfl
  · rw [if_neg hg]

/-- **C117, challenges of slots.** A challenge that was accepted changes nothing when executed again, although the pool admits it. -/
theorem C117_slot_challenge (s : State) (n : Option Nat) (a b who : Nat) (hch : step refOf s (.challenge n a b who) ≠ s) (later : List Step)
    (a' b' who' : Nat) :
    step refOf (run refOf (step refOf s (.challenge n a b who)) later) (.challenge n a' b' who') =
      run refOf (step refOf s (.challenge n a b who)) later :=
  C33_challenge_not_repeatable refOf s n a b who hch later a' b' who'

/-! ### A concrete history -/

namespace ReplayExample

/-- Three validators; the slot's validator is 1. -/
def g0 : State := genesis 50 30 1 [⟨1, 101⟩, ⟨2, 102⟩, ⟨3, 103⟩] true false 10
/-- A root is recorded. -/
def s1 : State := step (fun _ h => h) g0 (.record 50 7 1 1)
/-- Its id. -/
def rid : RootId := ⟨⟨0, 50⟩, 1⟩

/-- The hypotheses of the theorems on roots and votes are met; the recorded root is admitted again. -/
example : (recordSummary g0 50 7 1 1).isOk = true ∧ admitRecord s1 1 true = true ∧ (recordSummary s1 50 7 1 1).isOk = false ∧
    (castVote (fun _ h => h) s1 rid 2 false none true).isOk = true ∧ admitVote s1 rid 2 false true = true ∧
    admitVote (step (fun _ h => h) s1 (.vote rid 2 false none true)) rid 2 false true = false := by decide +kernel

/-- Those on the end of a vote (rejected by its deadline) and on slots. -/
example : let s2 : State := { s1 with block := 60 }
    (endVoting (fun _ h => h) s2 rid none true).isOk = true ∧ admitEnd s2 rid 3 true = true ∧
    admitEnd (step (fun _ h => h) s2 (.endVoting rid 3 none true)) rid 3 true = false ∧
    (updateSlot s2 1).isOk = true ∧ admitAdvance s2 0 1 true = true := by decide +kernel

end ReplayExample

end Verif.Summary
