import Verif.Lemmas.Summary4

/-!
# Properties C29–C35: summaries

All statements are about `run refOf (genesis …) steps` for an arbitrary list of calls `steps` (proposals, votes, ends of
voting, slot calls, configuration, hooks, changes of block number, author set and runtime configuration) and an arbitrary
reference function `refOf`.
-/

namespace Verif.Summary

open Verif

variable (refOf : RootId → Nat → Nat)

/-! ### Example world: four authors, schedule 30, voting 25, automatic submission to Ethereum -/

/-- Authors 0 to 3. -/
def exVs : List Avn.Validator := [⟨10, 0⟩, ⟨11, 1⟩, ⟨12, 2⟩, ⟨13, 3⟩]
/-- Example genesis. -/
def exG : State := genesis 30 25 10 exVs true false 5
/-- Example reference function. -/
def exRef : RootId → Nat → Nat := fun rid h => rid.range.toBlock + h
/-- The first root id. -/
def exR1 : RootId := ⟨⟨0, 30⟩, 1⟩
/-- The second root id. -/
def exR2 : RootId := ⟨⟨31, 60⟩, 2⟩
/-- Two roots are proposed and approved by two authors each; the first one is finalised. -/
def exSteps : List Step :=
  [.environment 31 exVs true false 5, .record 30 77 1 10, .vote exR1 11 true (some 5) true, .vote exR1 12 true (some 5) true,
   .advanceSlot 10, .environment 61 exVs true false 5, .record 60 78 2 11, .vote exR2 10 true (some 6) true,
   .vote exR2 13 true (some 6) true, .processResult 5 true true]

example : validatedRanges (run exRef exG exSteps).log = [⟨0, 30⟩, ⟨31, 60⟩] := by decide +kernel

/-! ### C29 -/

/-- No schedule change while a root is pending (in particular: no schedule change at all). -/
def QuietSchedule (g : State) (steps : List Step) : Prop :=
  ∀ pre op post, steps = pre ++ op :: post → isScheduleCall op = true → ∀ r, (run refOf g pre).pending r = none

theorem tile_run (g : State) (hg : Tile g) (steps : List Step) (hq : QuietSchedule refOf g steps) :
    Tile (run refOf g steps) := by
  induction steps using List.reverseRecOn with
  | nil => exact hg
  | append_singleton steps op ih =>
    have ht := ih (fun pre o post h => hq pre o (post ++ [op]) (by rw [h]; simp))
    have hsch : isScheduleCall op = true → ∀ r, (run refOf g steps).pending r = none := hq steps op [] rfl
    rw [run_snoc]
    have hv := step_view (refOf := refOf) (run refOf g steps) op
    generalize step refOf (run refOf g steps) op = s' at hv
    cases hv with
    | same => exact ht
    | one h => exact ht.micro h hsch
    | two rid x a p q v v' hop hv hc h2 =>
      refine (ht.micro (Micro.voted (refOf := refOf) rid x a p q v v' hop hv hc) hsch).micro (h2 (.cancelled 0)) ?_
      simp [isScheduleCall]

/-- **C29.** If the schedule is not changed while a root is pending, the ranges of the validated roots, in the order of
validation, tile the block numbers: each starts at the block following the previous one's last block, the first one at 0, and
the last one ends right before the next block to process. -/
theorem C29_validated_roots_tile (sp vp first : Nat) (vs : List Avn.Validator) (a e : Bool) (gr : Nat) (hsp : 30 ≤ sp)
    (steps : List Step) (hq : QuietSchedule refOf (genesis sp vp first vs a e gr) steps) :
    TilesFrom 0 (validatedRanges (run refOf (genesis sp vp first vs a e gr) steps).log)
      (run refOf (genesis sp vp first vs a e gr) steps).nextBlock := by
  refine (tile_run refOf _ ?_ steps hq).tiles
  exact { sp := hsp, pend := by simp [genesis], tiles := by simp [genesis, validatedRanges, TilesFrom] }

/-- **C29** (no gap, no overlap): every block below the next block to process lies in exactly one validated range, every other
block in none. -/
theorem C29_every_block_covered_once (sp vp first : Nat) (vs : List Avn.Validator) (a e : Bool) (gr : Nat) (hsp : 30 ≤ sp)
    (steps : List Step) (hq : QuietSchedule refOf (genesis sp vp first vs a e gr) steps) (b : Nat) :
    (validatedRanges (run refOf (genesis sp vp first vs a e gr) steps).log).countP
      (fun r => decide (r.fromBlock ≤ b) && decide (b ≤ r.toBlock)) =
    if b < (run refOf (genesis sp vp first vs a e gr) steps).nextBlock then 1 else 0 := by
  have h := tiles_cover (C29_validated_roots_tile refOf sp vp first vs a e gr hsp steps hq) b
  simpa [covers] using h

theorem quiet_of_no_schedule_call (g : State) (steps : List Step) (h : ∀ op ∈ steps, isScheduleCall op = false) :
    QuietSchedule refOf g steps := by
  intro pre op post he hs
  have := h op (by rw [he]; simp)
  rw [this] at hs; simp at hs

/-- The example history meets the hypotheses, and validates two ranges. -/
example : QuietSchedule exRef exG exSteps ∧ (run exRef exG exSteps).nextBlock = 61 :=
  ⟨quiet_of_no_schedule_call exRef exG exSteps (by decide), by decide +kernel⟩

/-- **C29** (other ranges are rejected): a proposal is recorded only for the range starting at the next block to process and
spanning one schedule period (the very first one includes block 0). -/
theorem C29_only_the_next_range (s : State) (b h k who : Nat)
    (hch : step refOf s (.record b h k who) ≠ s) :
    b = (if s.nextBlock = 0 then s.schedulePeriod else s.nextBlock + s.schedulePeriod - 1) ∧
    (step refOf s (.record b h k who)).pending ⟨s.nextBlock, b⟩ = some k ∧
    (∀ r, r ≠ ⟨s.nextBlock, b⟩ → (step refOf s (.record b h k who)).pending r = s.pending r) ∧
    Event.calculated ⟨⟨s.nextBlock, b⟩, k⟩ h who ∈ (step refOf s (.record b h k who)).log := by
  have hrec : ∃ ve, targetBlock s = .ok b ∧
      step refOf s (.record b h k who) = recordEffects s ⟨⟨s.nextBlock, b⟩, k⟩ h who ve := by
    simp only [step] at hch ⊢
    by_cases hg : s.slotValidator = some who ∧ Avn.isValidator s.validators who = true
    · rw [if_pos hg] at hch ⊢
      unfold recordSummary at hch ⊢
      by_cases h1 : wrapInc64 s.totalIngresses ≠ k
      · rw [if_pos h1] at hch; exact absurd rfl hch
      rw [if_neg h1] at hch ⊢
      by_cases h2 : Avn.isValidator s.validators who = false
      · rw [if_pos h2] at hch; exact absurd rfl hch
      rw [if_neg h2] at hch ⊢
      dsimp only at hch ⊢
      cases h3 : targetBlock s with
      | error e => rw [h3] at hch; exact absurd rfl hch
      | ok t =>
        rw [h3] at hch
        dsimp only at hch ⊢
        by_cases h4 : neitherPendingNorApproved s ⟨s.nextBlock, b⟩ = false
        · rw [if_pos h4] at hch; exact absurd rfl hch
        rw [if_neg h4] at hch ⊢
        by_cases h5 : (s.votes ⟨⟨s.nextBlock, b⟩, k⟩).isSome = true
        · rw [if_pos h5] at hch; exact absurd rfl hch
        rw [if_neg h5] at hch ⊢
        by_cases h6 : b ≠ t
        · rw [if_pos h6] at hch; exact absurd rfl hch
        rw [if_neg h6] at hch ⊢
        cases h7 : addBlocks s.block s.votingPeriod with
        | error e => rw [h7] at hch; exact absurd rfl hch
        | ok ve =>
          have hbt : b = t := by simpa using h6
          exact ⟨ve, by rw [hbt], rfl⟩
    · rw [if_neg hg] at hch; exact absurd rfl hch
  obtain ⟨ve, h1, h2⟩ := hrec
  refine ⟨targetBlock_ok h1, ?_, ?_, ?_⟩
  · rw [h2]; simp [recordEffects, upd_apply]
  · intro r hr; rw [h2]; simp [recordEffects, upd_apply, hr]
  · rw [h2]; simp [recordEffects]

example : (step exRef (run exRef exG (exSteps.take 1)) (.record 30 77 1 10)).pending ⟨0, 30⟩ = some 1 ∧
    (run exRef exG (exSteps.take 1)).pending ⟨0, 30⟩ = none := by decide +kernel

/-- **C29** (the condition on schedule changes is needed): if the schedule period is changed while a root is pending, a second
root with the same start and a different end can be proposed and both can be validated, so block 5 is covered twice. -/
theorem C29_schedule_change_while_pending_overlaps : ∃ steps : List Step,
    validatedRanges (run exRef exG steps).log = [⟨0, 30⟩, ⟨0, 40⟩] ∧
    (validatedRanges (run exRef exG steps).log).countP (fun r => decide (r.fromBlock ≤ 5) && decide (5 ≤ r.toBlock)) = 2 := by
  refine ⟨[.environment 31 exVs true false 5, .record 30 77 1 10, .setSchedule 40, .record 40 88 2 10,
    .vote exR1 11 true (some 5) true, .vote exR1 12 true (some 5) true,
    .vote ⟨⟨0, 40⟩, 2⟩ 11 true (some 6) true, .vote ⟨⟨0, 40⟩, 2⟩ 12 true (some 6) true], ?_⟩
  decide +kernel

/-! ### C30 -/

/-- **C30** (quorum): a validated root was proposed while there were `n` authors and approved, while it was pending, by at least
the quorum `n - 2n/3` of distinct accounts, each of which was an author when it voted. -/
theorem C30_validated_needs_quorum (sp vp first : Nat) (vs : List Avn.Validator) (a e : Bool) (gr : Nat) (steps : List Step)
    (rid : RootId) (h : Nat) (hm : .validated rid h ∈ (run refOf (genesis sp vp first vs a e gr) steps).log) :
    ∃ (n : Nat) (who : List Nat), ProposedWith refOf (genesis sp vp first vs a e gr) steps rid n ∧ who.Nodup ∧ n - n * 2 / 3 ≤ who.length ∧
      ∀ x ∈ who, ApprovedBy refOf (genesis sp vp first vs a e gr) steps rid x := by
  have hi := inv_run (inv_genesis (refOf := refOf) sp vp first vs a e gr) steps
  have hvi := voteInv_run (refOf := refOf) (genesis sp vp first vs a e gr) (fun _ => rfl) steps
  obtain ⟨d, h1, h2, _⟩ := hi.vlog rid h hm
  obtain ⟨v, h3, h4⟩ := hi.appr rid d h1 h2
  obtain ⟨⟨n, h5, h6⟩, h7, h8⟩ := hvi rid v h3
  refine ⟨n, v.ayes, h5, h7, ?_, h8⟩
  simp only [Avn.Session.isApproved, decide_eq_true_eq, h6, Avn.requiredFor] at h4
  exact h4

example : Event.validated exR1 77 ∈ (run exRef exG exSteps).log := by decide +kernel

/-- **C30** (never undone): once validated, a root stays validated with the same hash, and is validated exactly once. -/
theorem C30_validated_is_permanent (sp vp first : Nat) (vs : List Avn.Validator) (a e : Bool) (gr : Nat)
    (steps more : List Step) (rid : RootId) (h : Nat)
    (hm : .validated rid h ∈ (run refOf (genesis sp vp first vs a e gr) steps).log) :
    (∃ d, getRoot (run refOf (genesis sp vp first vs a e gr) (steps ++ more)).roots rid = some d ∧ d.validated = true ∧
      d.rootHash = h) ∧
    (run refOf (genesis sp vp first vs a e gr) (steps ++ more)).log.countP
      (isValidated rid) = 1 := by
  have hmm : .validated rid h ∈ (run refOf (genesis sp vp first vs a e gr) (steps ++ more)).log := by
    rw [run_append]
    obtain ⟨evs, he⟩ := run_log (refOf := refOf) (run refOf (genesis sp vp first vs a e gr) steps) more
    rw [he]; exact List.mem_append_left _ hm
  refine ⟨(inv_run (inv_genesis (refOf := refOf) sp vp first vs a e gr) (steps ++ more)).vlog rid h hmm, ?_⟩
  have hle : ∀ l : List Step, (run refOf (genesis sp vp first vs a e gr) l).log.countP
      (isValidated rid) ≤ 1 := by
    intro l
    induction l using List.reverseRecOn with
    | nil => simp [run, genesis]
    | append_singleton l op ih =>
      rw [run_snoc]
      obtain ⟨evs, h2, h3⟩ := view_log (step_view (refOf := refOf) (run refOf (genesis sp vp first vs a e gr) l) op)
      rw [h2, List.countP_append]
      have hi := inv_run (inv_genesis (refOf := refOf) sp vp first vs a e gr) l
      by_cases hz : evs.countP (isValidated rid) = 0
      · omega
      · obtain ⟨ev, hev, hp⟩ := List.countP_pos_iff.1 (Nat.pos_of_ne_zero hz)
        have hnone : (run refOf (genesis sp vp first vs a e gr) l).log.countP
            (isValidated rid) = 0 := by
          cases ev with
          | validated r x =>
            have : r = rid := by simpa [isValidated] using hp
            subst this
            obtain ⟨d, v, g1, _, _, g4⟩ := (sessionValid_iff _ r).1 (h3.val r x hev)
            rw [List.countP_eq_zero]
            intro e2 he2
            cases e2 with
            | validated r2 x2 =>
              simp only [isValidated, beq_iff_eq]
              rintro rfl
              obtain ⟨d', k1, k2, _⟩ := hi.vlog r2 x2 he2
              rw [g1] at k1; cases k1; rw [g4] at k2; simp at k2
            | _ => simp [isValidated]
          | _ => simp [isValidated] at hp
        have := h3.valOnce rid
        omega
  have hpos : 0 < (run refOf (genesis sp vp first vs a e gr) (steps ++ more)).log.countP
      (isValidated rid) :=
    List.countP_pos_iff.2 ⟨_, hmm, by simp [isValidated]⟩
  have := hle (steps ++ more)
  omega

/-- **C30** (never re-proposed): after a range was validated no further root of that range is ever recorded. -/
theorem C30_validated_range_not_reproposed (sp vp first : Nat) (vs : List Avn.Validator) (a e : Bool) (gr : Nat)
    (steps more : List Step) (rid : RootId) (h : Nat)
    (hm : .validated rid h ∈ (run refOf (genesis sp vp first vs a e gr) steps).log) (k h' w : Nat)
    (hc : .calculated ⟨rid.range, k⟩ h' w ∈ (run refOf (genesis sp vp first vs a e gr) (steps ++ more)).log) :
    .calculated ⟨rid.range, k⟩ h' w ∈ (run refOf (genesis sp vp first vs a e gr) steps).log := by
  refine Classical.byContradiction (fun hn => ?_)
  rw [run_append] at hc
  obtain ⟨pre, op, post, h1, evs, h2, h3, h4⟩ := run_log_origin (refOf := refOf) _ more _ hc hn
  obtain ⟨_, hfree, _⟩ := h4.prop _ _ _ h3
  rw [← run_append] at hfree
  obtain ⟨⟨d, g1, g2, _⟩, _⟩ := C30_validated_is_permanent refOf sp vp first vs a e gr steps pre rid h hm
  simp only [neitherPendingNorApproved, Bool.and_eq_true, Bool.not_eq_true'] at hfree
  have := none_validated hfree.2 rid.ingress d g1
  rw [g2] at this; simp at this

/-- **C30** (a session is open only while pending): for a root id that is not pending, votes and ends of voting have no effect. -/
theorem C30_no_votes_unless_pending (s : State) (rid : RootId) (hp : s.pending rid.range ≠ some rid.ingress)
    (x : Nat) (ap : Bool) (p : Option Nat) (q : Bool) :
    step refOf s (.vote rid x ap p q) = s ∧ step refOf s (.endVoting rid x p q) = s := by
  have hv : sessionValid s rid = false := by
    cases h : sessionValid s rid with
    | false => rfl
    | true => obtain ⟨_, _, _, h2, _⟩ := (sessionValid_iff s rid).1 h; exact absurd h2 hp
  have ha : sessionActive s rid = false := by
    unfold sessionActive; rw [hv]; cases s.votes rid <;> simp
  constructor
  · simp only [step, castVote]
    cases hs : s.votes rid with
    | none => rfl
    | some v =>
      dsimp only
      rw [ha]
      unfold Avn.castVote Avn.validateVote
      by_cases h1 : Avn.isValidator s.validators x = false
      · rw [if_pos h1]; rfl
      · rw [if_neg h1]; rfl
  · simp only [step]
    by_cases h1 : Avn.isValidator s.validators x = true
    · rw [if_pos h1]; unfold endVoting; rw [if_pos hv]; rfl
    · rw [if_neg h1]

/-- **C30** (a pending root has an open session): in every reachable state, a pending root has a voting session, and until its end
block an author who has not voted can vote on it (unless the 256-entry vote list is full or the acceptance it completes fails). -/
theorem C30_pending_has_session (sp vp first : Nat) (vs : List Avn.Validator) (a e : Bool) (gr : Nat) (steps : List Step)
    (rid : RootId) (hp : (run refOf (genesis sp vp first vs a e gr) steps).pending rid.range = some rid.ingress) :
    ∃ v, (run refOf (genesis sp vp first vs a e gr) steps).votes rid = some v ∧
      ∀ x p q, Avn.isValidator (run refOf (genesis sp vp first vs a e gr) steps).validators x = true →
        (run refOf (genesis sp vp first vs a e gr) steps).block < v.endOfVotingPeriod →
        x ∉ v.ayes → x ∉ v.nays → v.nays.length < 256 → v.nays.length + 1 < v.threshold → v.ayes.length < v.threshold →
        (step refOf (run refOf (genesis sp vp first vs a e gr) steps) (.vote rid x false p q)).votes rid =
          some { v with nays := v.nays ++ [x] } := by
  have hi := inv_run (inv_genesis (refOf := refOf) sp vp first vs a e gr) steps
  generalize run refOf (genesis sp vp first vs a e gr) steps = s at *
  obtain ⟨d, h1⟩ := Option.isSome_iff_exists.1 (hi.pend _ _ hp)
  obtain ⟨v, h2⟩ := Option.isSome_iff_exists.1 (hi.rv _ _ h1)
  have h3 := hi.pendNot _ _ rid.ingress d hp h1
  refine ⟨v, h2, ?_⟩
  intro x p q hx hb ha hn hl ht hta
  have hact : sessionActive s rid = true := by
    unfold sessionActive
    rw [h2]
    simp only [Bool.and_eq_true, decide_eq_true_eq]
    exact ⟨hb, (sessionValid_iff s rid).2 ⟨d, v, h1, hp, h2, h3⟩⟩
  have hcast : Avn.castVote s.validators (sessionActive s rid) v x false = .ok { v with nays := v.nays ++ [x] } := by
    unfold Avn.castVote Avn.validateVote
    have hnv : v.hasVoted x = false := by simp [Avn.Session.hasVoted, ha, hn]
    rw [if_neg (by simp [hx]), if_neg (by simp [hact]), if_neg (by simp [hnv])]
    dsimp only
    rw [if_neg (by simp), if_pos (by simpa [Avn.maxValidators] using hl)]
  have hno : ({ v with nays := v.nays ++ [x] } : Avn.Session).hasOutcome = false := by
    simp [Avn.Session.hasOutcome]; omega
  simp only [step, castVote, h2, hcast, hno, Bool.false_and, Bool.false_eq_true, if_false]
  simp [commit, upd_apply]

example : (run exRef exG (exSteps.take 2)).pending exR1.range = some exR1.ingress := by decide +kernel

/-! ### C31 -/

/-- **C31.** A finalised root was published under some transaction id, and the bridge reported success for exactly that id, while it
was the id recorded for this root. -/
theorem C31_finalised_only_after_success (sp vp first : Nat) (vs : List Avn.Validator) (a e : Bool) (gr : Nat) (steps : List Step)
    (rid : RootId) (d : RootData) (hd : getRoot (run refOf (genesis sp vp first vs a e gr) steps).roots rid = some d)
    (hf : d.finalised = true) :
    ∃ tx pre post, steps = pre ++ Step.processResult tx true true :: post ∧ d.txId = some tx ∧
      (run refOf (genesis sp vp first vs a e gr) pre).txIdToRoot tx = some rid ∧
      Event.passed rid d.rootHash (some tx) ∈ (run refOf (genesis sp vp first vs a e gr) pre).log := by
  have hi := inv_run (inv_genesis (refOf := refOf) sp vp first vs a e gr) steps
  obtain ⟨tx, h1⟩ := hi.fin rid d hd hf
  obtain ⟨d', h2, _, h3, _⟩ := hi.finlog rid tx h1
  rw [hd] at h2; cases h2
  obtain ⟨pre, op, post, h4, evs, _, h6, h7⟩ := run_log_origin (refOf := refOf) _ steps _ h1 (by simp [genesis])
  obtain ⟨h8, h9⟩ := h7.fin rid tx h6
  refine ⟨tx, pre, post, by rw [h4, h8], h3, h9, ?_⟩
  have hi' := inv_run (inv_genesis (refOf := refOf) sp vp first vs a e gr) pre
  obtain ⟨d2, k1, _, k3⟩ := hi'.tx tx rid h9
  -- the hash never changes: the acceptance is still in the final log
  have hm : Event.passed rid d2.rootHash (some tx) ∈ (run refOf (genesis sp vp first vs a e gr) steps).log := by
    rw [h4, run_append]
    obtain ⟨evs', he⟩ := run_log (refOf := refOf) (run refOf (genesis sp vp first vs a e gr) pre) (op :: post)
    rw [he]; exact List.mem_append_left _ k3
  obtain ⟨d3, l1, _, l3, _⟩ := hi.pass rid _ _ hm
  rw [hd] at l1; cases l1
  rw [l3]; exact k3

example : (getRoot (run exRef exG exSteps).roots exR1).map (·.finalised) = some true ∧
    (getRoot (run exRef exG exSteps).roots exR2).map (·.finalised) = some false := by decide +kernel

/-- **C31** (notifications): a failed notification, one for another pallet or one for an unknown transaction id changes nothing; a success
for a recorded id finalises its root and no other. -/
theorem C31_notifications (s : State) (tx : Nat) :
    (∀ mine, step refOf s (.processResult tx mine false) = s) ∧ (∀ ok, step refOf s (.processResult tx false ok) = s) ∧
    (s.txIdToRoot tx = none → step refOf s (.processResult tx true true) = s) ∧
    (∀ rid d, s.txIdToRoot tx = some rid → getRoot s.roots rid = some d →
      getRoot (step refOf s (.processResult tx true true)).roots rid = some { d with finalised := true } ∧
      ∀ x, x ≠ rid → getRoot (step refOf s (.processResult tx true true)).roots x = getRoot s.roots x) := by
  refine ⟨?_, ?_, ?_, ?_⟩
  · intro mine; cases mine <;> simp [step, processResult]; cases s.txIdToRoot tx <;> rfl
  · intro ok; simp [step, processResult]
  · intro h; simp [step, processResult, h]
  · intro rid d h hd
    simp only [step, processResult, h, if_true]
    refine ⟨by simp [getRoot_mutate, hd], ?_⟩
    intro x hx; simp [getRoot_mutate, hx]

/-! ### C32 and C33 -/

theorem canAdvance_ok {s : State} {who : Nat} (h : canAdvance s who = .ok ()) : s.nextSlotAt ≤ s.block ∧
    ∃ v, s.slotValidator = some v ∧ (s.block - s.nextSlotAt > s.grace → who ≠ v) ∧ (s.block - s.nextSlotAt ≤ s.grace → who = v) := by
  unfold canAdvance at h
  by_cases h1 : s.block < s.nextSlotAt
  · rw [if_pos h1] at h; simp at h
  rw [if_neg h1] at h
  refine ⟨by omega, ?_⟩
  cases hs : s.slotValidator with
  | none => rw [hs] at h; simp at h
  | some v =>
    rw [hs] at h
    dsimp only at h
    refine ⟨v, rfl, ?_, ?_⟩
    · intro hg
      rw [if_pos (by simp [graceElapsed, hg])] at h
      by_cases h2 : who = v
      · rw [if_pos h2] at h; simp at h
      · exact h2
    · intro hg
      rw [if_neg (by simp [graceElapsed]; omega)] at h
      by_cases h2 : who ≠ v
      · rw [if_pos h2] at h; simp at h
      · simpa using h2

/-- What an accepted slot advance by `who` must look like. -/
def SlotAdvance (s s' : State) (who : Nat) : Prop :=
  s.nextSlotAt ≤ s.block ∧ s'.currentSlot = s.currentSlot + 1 ∧ s'.nextSlotAt = s.nextSlotAt + s.schedulePeriod ∧
  (∃ v, s.slotValidator = some v ∧ (s.block - s.nextSlotAt ≤ s.grace → who = v) ∧ (s.block - s.nextSlotAt > s.grace → who ≠ v)) ∧
  ∃ (i : Nat) (v : Avn.Validator), i = (s.currentSlot + 1) % s.validators.length ∧ s.validators[i]? = some v ∧
    s'.slotValidator = some v.account

theorem updateSlot_advance {s s0 s' : State} {who : Nat} (h : updateSlot s0 who = .ok s') (hs0 : s0 = { s with log := s0.log }) :
    SlotAdvance s s' who := by
  obtain ⟨h1, h2, v, h3, h4, rfl⟩ := updateSlot_ok h
  rw [hs0] at h1 h3 ⊢
  obtain ⟨g1, w, g2, g3, g4⟩ := canAdvance_ok h1
  refine ⟨g1, rfl, rfl, ⟨w, g2, g4, g3⟩, ?_⟩
  dsimp only at h3
  unfold Avn.primaryForBlock at h3
  by_cases hn : s.validators = []
  · rw [if_pos hn] at h3; simp at h3
  rw [if_neg hn] at h3
  cases hg : s.validators[(s.currentSlot + 1) % s.validators.length]? with
  | none => rw [hg] at h3; simp at h3
  | some x =>
    rw [hg] at h3
    simp only [Except.ok.injEq] at h3
    exact ⟨_, x, rfl, hg, by simp [h3]⟩

/-- **C32.** Any call that changes the slot number is an accepted slot advance by a current author: by exactly one, not before the
slot's end block, by the slot's own validator during the grace period and only by another one after it, and the new slot validator is
the author at index `slot mod n`. -/
theorem C32_slot_advance (s : State) (op : Step) (hch : (step refOf s op).currentSlot ≠ s.currentSlot) :
    ∃ who, ((op = .advanceSlot who) ∨ (∃ n a b, op = .challenge n a b who)) ∧ Avn.isValidator s.validators who = true ∧
      SlotAdvance s (step refOf s op) who := by
  have hcommit : ∀ r : Except Err State, (∀ s', r = .ok s' → s'.currentSlot = s.currentSlot) →
      (commit s r).currentSlot = s.currentSlot := by
    intro r h; cases r with
    | error e => rfl
    | ok s' => exact h s' rfl
  by_cases hroot : isRootCall op = true
  · exact absurd (step_same (refOf := refOf) s op hroot).1 hch
  cases op with
  | advanceSlot who =>
    simp only [step] at hch ⊢
    by_cases hg : s.slotValidator = some who ∧ Avn.isValidator s.validators who = true
    · rw [if_pos hg] at hch ⊢
      cases hu : updateSlot s who with
      | error e => rw [hu] at hch; exact absurd rfl hch
      | ok s' => exact ⟨who, .inl rfl, hg.2, updateSlot_advance hu rfl⟩
    · rw [if_neg hg] at hch; exact absurd rfl hch
  | challenge n a b who =>
    simp only [step] at hch ⊢
    by_cases hg : Avn.isValidator s.validators who = true
    · rw [if_pos hg] at hch ⊢
      unfold addChallenge at hch ⊢
      by_cases h1 : challengeValid s n b = false
      · rw [if_pos h1] at hch; exact absurd rfl hch
      · rw [if_neg h1] at hch ⊢
        dsimp only at hch ⊢
        cases hu : updateSlot { s with log := s.log ++ [.offence .slotNotAdvanced [b]] } who with
        | error e => rw [hu] at hch; exact absurd rfl hch
        | ok s2 =>
          refine ⟨who, .inr ⟨n, a, b, rfl⟩, hg, ?_⟩
          have := updateSlot_advance (s := s) hu rfl
          exact this
    · rw [if_neg hg] at hch; exact absurd rfl hch
  | setPeriods a b =>
    refine absurd (hcommit _ (fun s' hs => ?_)) hch
    obtain ⟨_, _, _, _, rfl⟩ := setPeriods_ok hs; rfl
  | setSchedule a =>
    refine absurd (hcommit _ (fun s' hs => ?_)) hch
    obtain ⟨_, _, _, _, rfl⟩ := setSchedule_ok hs; rfl
  | setVoting a =>
    refine absurd (hcommit _ (fun s' hs => ?_)) hch
    obtain ⟨_, _, _, rfl⟩ := setVoting_ok hs; rfl
  | _ => simp [isRootCall] at hroot

example : (run exRef exG (exSteps.take 5)).currentSlot = 1 ∧ (run exRef exG (exSteps.take 4)).currentSlot = 0 ∧
    (run exRef exG (exSteps.take 5)).slotValidator = some 11 := by decide +kernel

/-- **C32** (`advance_slot` itself): during the grace period the slot's validator, if still an author, can advance the slot (as long as
block numbers fit in 32 bits). After the grace period `advance_slot` does nothing for anybody: the slot then moves only through a
challenge. -/
theorem C32_advance_slot_call (s : State) (who : Nat) :
    (s.slotValidator = some who → Avn.isValidator s.validators who = true → s.nextSlotAt ≤ s.block →
      s.block - s.nextSlotAt ≤ s.grace → s.currentSlot + 1 < 2 ^ 32 → s.nextSlotAt + s.schedulePeriod < 2 ^ 32 →
      (step refOf s (.advanceSlot who)).currentSlot = s.currentSlot + 1) ∧
    (s.block - s.nextSlotAt > s.grace → step refOf s (.advanceSlot who) = s) := by
  constructor
  · intro h1 h2 h3 h4 h5 h6
    simp only [step]
    rw [if_pos ⟨h1, h2⟩]
    have hc : canAdvance s who = .ok () := by
      unfold canAdvance
      rw [if_neg (by omega), h1]
      dsimp only
      rw [if_neg (by simp [graceElapsed]; omega), if_neg (by simp)]
    have hne : s.validators ≠ [] := by
      intro h; rw [h] at h2; simp [Avn.isValidator] at h2
    have hlt : (s.currentSlot + 1) % s.validators.length < s.validators.length :=
      Nat.mod_lt _ (List.length_pos_iff.2 hne)
    unfold updateSlot
    rw [hc]
    dsimp only
    have e1 : addBlocks s.currentSlot 1 = .ok (s.currentSlot + 1) := by
      unfold addBlocks; rw [if_pos (by simpa [pow32] using h5)]
    rw [e1]
    dsimp only
    have e2 : Avn.primaryForBlock s.validators (s.currentSlot + 1) =
        .ok (s.validators[(s.currentSlot + 1) % s.validators.length]'hlt).account := by
      unfold Avn.primaryForBlock
      rw [if_neg hne, List.getElem?_eq_getElem hlt]
    rw [e2]
    dsimp only
    have e3 : addBlocks s.nextSlotAt s.schedulePeriod = .ok (s.nextSlotAt + s.schedulePeriod) := by
      unfold addBlocks; rw [if_pos (by simpa [pow32] using h6)]
    rw [e3]
    rfl
  · intro hg
    simp only [step]
    by_cases h1 : s.slotValidator = some who ∧ Avn.isValidator s.validators who = true
    · rw [if_pos h1]
      cases hu : updateSlot s who with
      | error e => rfl
      | ok s' =>
        obtain ⟨_, _, _, ⟨v, h2, _, h3⟩, _⟩ := updateSlot_advance (s := s) hu rfl
        rw [h1.1] at h2; cases h2
        exact absurd rfl (h3 hg)
    · rw [if_neg h1]

example : (run exRef exG (exSteps.take 4)).slotValidator = some 10 ∧ (run exRef exG (exSteps.take 4)).nextSlotAt ≤
    (run exRef exG (exSteps.take 4)).block := by decide +kernel

/-- The situation in which a slot challenge is justified: the current slot, its validator, grace period over. -/
def Absent (s : State) (slot challengee : Nat) : Prop :=
  slot = s.currentSlot ∧ s.slotValidator = some challengee ∧ s.block - s.nextSlotAt > s.grace

theorem challengeValid_iff (s : State) (n : Option Nat) (b : Nat) :
    challengeValid s n b = true ↔ ∃ k, n = some k ∧ Absent s k b := by
  unfold challengeValid Absent
  cases n with
  | none => simp
  | some k =>
    cases hs : s.slotValidator with
    | none => simp
    | some v =>
      simp only [graceElapsed, Bool.and_eq_true, beq_iff_eq, decide_eq_true_eq, Option.some.injEq, exists_eq_left']
      constructor
      · rintro ⟨⟨h1, h2⟩, h3⟩; exact ⟨h1, h3.symm, h2⟩
      · rintro ⟨h1, h3, h2⟩; exact ⟨⟨h1, h2⟩, h3.symm⟩

/-- **C33.** A challenge that has any effect names the current slot and its current validator, after the grace period, and is submitted by
another author; it moves the slot forward and is recorded, and the very same challenge is rejected from then on until (if ever) the slot
counter returns — it never does, since it only increases. -/
theorem C33_challenge_sound (s : State) (n : Option Nat) (a b who : Nat) (hch : step refOf s (.challenge n a b who) ≠ s) :
    (∃ k, n = some k ∧ Absent s k b ∧ who ≠ b ∧ Avn.isValidator s.validators who = true ∧
      Event.challengeAdded k a b ∈ (step refOf s (.challenge n a b who)).log ∧
      Event.offence .slotNotAdvanced [b] ∈ (step refOf s (.challenge n a b who)).log) ∧
    (step refOf s (.challenge n a b who)).currentSlot = s.currentSlot + 1 := by
  simp only [step] at hch ⊢
  by_cases hg : Avn.isValidator s.validators who = true
  · rw [if_pos hg] at hch ⊢
    unfold addChallenge at hch ⊢
    by_cases h1 : challengeValid s n b = false
    · rw [if_pos h1] at hch; exact absurd rfl hch
    rw [if_neg h1] at hch ⊢
    dsimp only at hch ⊢
    obtain ⟨k, rfl, habs⟩ := (challengeValid_iff s n b).1 (by simpa using h1)
    cases hu : updateSlot { s with log := s.log ++ [.offence .slotNotAdvanced [b]] } who with
    | error e => rw [hu] at hch; exact absurd rfl hch
    | ok s2 =>
      have hadv := updateSlot_advance (s := s) hu rfl
      obtain ⟨_, h2, _, ⟨v, h3, _, h4⟩, _⟩ := hadv
      obtain ⟨_, _, w, _, _, rfl⟩ := updateSlot_ok hu
      rw [habs.2.1] at h3; cases h3
      refine ⟨⟨k, rfl, habs, h4 habs.2.2, hg, ?_, ?_⟩, h2⟩
      · simp [commit]
      · simp [commit]
  · rw [if_neg hg] at hch; exact absurd rfl hch

/-- The slot counter never decreases. -/
theorem slot_mono (s : State) (steps : List Step) : s.currentSlot ≤ (run refOf s steps).currentSlot := by
  induction steps using List.reverseRecOn with
  | nil => simp [run]
  | append_singleton steps op ih =>
    rw [run_snoc]
    by_cases h : (step refOf (run refOf s steps) op).currentSlot = (run refOf s steps).currentSlot
    · omega
    · obtain ⟨_, _, _, _, h2, _⟩ := C32_slot_advance refOf _ op h
      omega

/-- **C33** (once): after an accepted challenge of a slot, any challenge of that slot is rejected, whatever happens in between. -/
theorem C33_challenge_not_repeatable (s : State) (n : Option Nat) (a b who : Nat) (hch : step refOf s (.challenge n a b who) ≠ s)
    (between : List Step) (a' b' who' : Nat) :
    step refOf (run refOf (step refOf s (.challenge n a b who)) between) (.challenge n a' b' who') =
      run refOf (step refOf s (.challenge n a b who)) between := by
  obtain ⟨⟨k, rfl, habs, _⟩, h2⟩ := C33_challenge_sound refOf s n a b who hch
  refine Classical.byContradiction (fun hne => ?_)
  obtain ⟨⟨k', hk, habs', _⟩, _⟩ := C33_challenge_sound refOf _ _ _ _ _ hne
  cases hk
  have := slot_mono refOf (step refOf s (.challenge (some k) a b who)) between
  have := habs.1; have := habs'.1
  omega

/-- Example: at block 36 the grace period of slot 0 (ending at 30) is over; author 11 challenges validator 10. -/
example : (run exRef exG [.environment 36 exVs true false 5, .challenge (some 0) 11 10 11]).currentSlot = 1 := by decide +kernel

/-! ### C34 -/

/-- The bounds. -/
def PeriodsOk (s : State) : Prop :=
  30 ≤ s.schedulePeriod ∧ 25 ≤ s.votingPeriod ∧ s.votingPeriod ≤ 28800 ∧ s.votingPeriod < s.schedulePeriod

theorem periods_step (s : State) (op : Step) (h : PeriodsOk s) : PeriodsOk (step refOf s op) := by
  have hcommit : ∀ r : Except Err State, (∀ s', r = .ok s' → PeriodsOk s') → PeriodsOk (commit s r) := by
    intro r hr; cases r with
    | error e => exact h
    | ok s' => exact hr s' rfl
  by_cases hroot : isRootCall op = true
  · obtain ⟨_, h1, h2⟩ := step_same (refOf := refOf) s op hroot
    unfold PeriodsOk; rw [h1, h2]; exact h
  cases op with
  | advanceSlot who =>
    simp only [step]
    split
    · refine hcommit _ (fun s' hs => ?_)
      obtain ⟨_, _, v, _, _, rfl⟩ := updateSlot_ok hs; exact h
    · exact h
  | challenge n a b who =>
    simp only [step]
    split
    · refine hcommit _ (fun s' hs => ?_)
      unfold addChallenge at hs
      split at hs
      · simp at hs
      · dsimp only at hs
        split at hs
        · simp at hs
        · rename_i s2 hu
          cases hs
          obtain ⟨_, _, v, _, _, rfl⟩ := updateSlot_ok hu
          exact h
    · exact h
  | setPeriods a b =>
    refine hcommit _ (fun s' hs => ?_)
    obtain ⟨h1, h2, h3, h4, rfl⟩ := setPeriods_ok hs
    exact ⟨h1, h2, h4, h3⟩
  | setSchedule a =>
    refine hcommit _ (fun s' hs => ?_)
    obtain ⟨h1, h2, h3, h4, rfl⟩ := setSchedule_ok hs
    exact ⟨h1, h2, h4, h3⟩
  | setVoting a =>
    refine hcommit _ (fun s' hs => ?_)
    obtain ⟨h1, h2, h3, rfl⟩ := setVoting_ok hs
    exact ⟨h.1, h1, h3, h2⟩
  | _ => simp [isRootCall] at hroot

/-- **C34.** From a valid genesis configuration, the periods stay within their bounds forever. -/
theorem C34_periods_within_bounds (sp vp first : Nat) (vs : List Avn.Validator) (a e : Bool) (gr : Nat)
    (h0 : 30 ≤ sp ∧ 25 ≤ vp ∧ vp ≤ 28800 ∧ vp < sp) (steps : List Step) :
    30 ≤ (run refOf (genesis sp vp first vs a e gr) steps).schedulePeriod ∧
    25 ≤ (run refOf (genesis sp vp first vs a e gr) steps).votingPeriod ∧
    (run refOf (genesis sp vp first vs a e gr) steps).votingPeriod ≤ 28800 ∧
    (run refOf (genesis sp vp first vs a e gr) steps).votingPeriod <
      (run refOf (genesis sp vp first vs a e gr) steps).schedulePeriod := by
  induction steps using List.reverseRecOn with
  | nil => exact h0
  | append_singleton steps op ih => rw [run_snoc]; exact periods_step refOf _ op ih

example : (run exRef exG [.setPeriods 100 99, .setSchedule 99, .setVoting 29000, .setVoting 30, .setSchedule 31]).schedulePeriod = 31 ∧
    (run exRef exG [.setPeriods 100 99, .setSchedule 99, .setVoting 29000, .setVoting 30, .setSchedule 31]).votingPeriod = 30 := by
  decide +kernel

/-! ### C35 -/

/-- **C35.** Every root is decided at most once: it is accepted (published or anchored) at most once, and never both accepted and
rejected by the administrator. -/
theorem C35_decided_once (sp vp first : Nat) (vs : List Avn.Validator) (a e : Bool) (gr : Nat) (steps : List Step) (rid : RootId) :
    (run refOf (genesis sp vp first vs a e gr) steps).log.countP (fun ev => match ev with
      | .passed r _ _ => r == rid
      | .resolved r false => r == rid
      | _ => false) ≤ 1 := by
  have h := (dec_run (refOf := refOf) sp vp first vs a e gr steps).once rid
  have heq : (fun ev => match ev with
      | Event.passed r _ _ => r == rid
      | .resolved r false => r == rid
      | _ => false) = isDecision rid := by
    funext ev
    cases ev with
    | resolved r b => cases b <;> rfl
    | _ => rfl
  rw [heq]; exact h

/-- **C35** (who may accept): a root is accepted only by (i) the end of its author vote, when external validation is off; (ii) a passed (or
expired) external vote on its registered reference; (iii) an administrator decision on its pending review. -/
theorem C35_acceptance_sources (sp vp first : Nat) (vs : List Avn.Validator) (a e : Bool) (gr : Nat) (steps : List Step)
    (rid : RootId) (h : Nat) (t : Option Nat) (hm : .passed rid h t ∈ (run refOf (genesis sp vp first vs a e gr) steps).log) :
    ∃ pre op post, steps = pre ++ op :: post ∧
      ((run refOf (genesis sp vp first vs a e gr) pre).pending rid.range = some rid.ingress ∧
          (run refOf (genesis sp vp first vs a e gr) pre).external = false ∨
       (∃ ref p, op = .votingCompleted ref true p ∧ (run refOf (genesis sp vp first vs a e gr) pre).extRef ref = some rid) ∨
       (∃ p ref, op = .adminResolve rid true p ∧ (run refOf (genesis sp vp first vs a e gr) pre).reviews rid = some ref ∧
          (run refOf (genesis sp vp first vs a e gr) pre).extStatus rid = some .pendingAdminReview)) := by
  obtain ⟨pre, op, post, h1, evs, _, h3, h4⟩ := run_log_origin (refOf := refOf) _ steps _ hm (by simp [genesis])
  refine ⟨pre, op, post, h1, ?_⟩
  rcases h4.pass rid h t h3 with ⟨g1, g2⟩ | h | ⟨p, g1, ⟨ref, g2⟩, g3⟩
  · obtain ⟨_, _, _, g3, _⟩ := (sessionValid_iff _ rid).1 g1
    exact .inl ⟨g3, g2⟩
  · exact .inr (.inl h)
  · exact .inr (.inr ⟨p, ref, g1, g2, g3⟩)

/-- Pending reviews come from a cancelled or failed external vote. -/
theorem review_origin (sp vp first : Nat) (vs : List Avn.Validator) (a e : Bool) (gr : Nat) (steps : List Step)
    (rid : RootId) (ref : Nat) (hr : (run refOf (genesis sp vp first vs a e gr) steps).reviews rid = some ref) :
    ∃ pre op post, steps = pre ++ op :: post ∧ (op = .cancelled ref ∨ ∃ p, op = .votingCompleted ref false p) ∧
      (run refOf (genesis sp vp first vs a e gr) pre).extRef ref = some rid := by
  induction steps using List.reverseRecOn with
  | nil => simp [run, genesis] at hr
  | append_singleton steps op ih =>
    have hold : (run refOf (genesis sp vp first vs a e gr) steps).reviews rid = some ref → ∃ pre o post,
        steps ++ [op] = pre ++ o :: post ∧ (o = .cancelled ref ∨ ∃ p, o = .votingCompleted ref false p) ∧
        (run refOf (genesis sp vp first vs a e gr) pre).extRef ref = some rid := by
      intro h
      obtain ⟨pre, o, post, h1, h2⟩ := ih h
      exact ⟨pre, o, post ++ [op], by rw [h1]; simp, h2⟩
    have hmicro : ∀ {s s' : State} {o : Step}, Micro refOf o s s' → s'.reviews rid = some ref → s.reviews rid = some ref ∨
        ((o = .cancelled ref ∨ ∃ p, o = .votingCompleted ref false p) ∧ s.extRef ref = some rid) := by
      intro s s' o hm h
      cases hm with
      | frame _ evs hf => rw [hf.2.2.2.2.2.2.1] at h; exact .inl h
      | recorded => exact .inl h
      | voted => exact .inl h
      | approved x v d pub s1 hval hv hd happ hacc =>
        left
        simp only [markValidated] at h
        cases hacc with
        | submitted => exact h
        | processed _ hp => rw [(processed_rest hp hd).2.2.2.1] at h; exact h
      | rejected => exact .inl h
      | resolvedAccept x r d pub s1 hop hr hst hd hp =>
        left
        simp only [cleanup, upd_apply, (processed_rest hp hd).2.2.2.1] at h
        split at h
        · simp at h
        · exact h
      | resolvedReject =>
        left
        simp only [cleanup, upd_apply] at h
        split at h
        · simp at h
        · exact h
      | completed x r d pub s1 hop hr hd hp =>
        left
        simp only [cleanup, upd_apply, (processed_rest hp hd).2.2.2.1] at h
        split at h
        · simp at h
        · exact h
      | stuck => exact .inl h
      | review x r hop hr =>
        simp only [setupReview, upd_apply] at h
        split at h
        · rename_i e
          cases h
          right
          exact ⟨hop, by rw [e]; exact hr⟩
        · exact .inl h
      | finalised => exact .inl h
    rw [run_snoc] at hr
    have hv := step_view (refOf := refOf) (run refOf (genesis sp vp first vs a e gr) steps) op
    generalize step refOf (run refOf (genesis sp vp first vs a e gr) steps) op = s' at hv hr
    cases hv with
    | same => exact hold hr
    | one h =>
      rcases hmicro h hr with h' | ⟨h1, h2⟩
      · exact hold h'
      · exact ⟨steps, op, [], rfl, h1, h2⟩
    | two rid' x a p q v v' hop hv hc h2 =>
      rcases hmicro (h2 (.advanceSlot 0)) hr with h' | ⟨h1, _⟩
      · exact hold h'
      · simp at h1

/-- **C35** (administrator): an administrator decision has an effect only for a root whose external vote was cancelled or failed
earlier in the history and whose review is still pending. -/
theorem C35_admin_needs_review (sp vp first : Nat) (vs : List Avn.Validator) (a e : Bool) (gr : Nat) (steps : List Step)
    (rid : RootId) (acc : Bool) (p : Option Nat)
    (hch : step refOf (run refOf (genesis sp vp first vs a e gr) steps) (.adminResolve rid acc p) ≠
      run refOf (genesis sp vp first vs a e gr) steps) :
    ∃ ref, (run refOf (genesis sp vp first vs a e gr) steps).reviews rid = some ref ∧
      (run refOf (genesis sp vp first vs a e gr) steps).extStatus rid = some .pendingAdminReview ∧
      ∃ pre op post, steps = pre ++ op :: post ∧ (op = .cancelled ref ∨ ∃ p, op = .votingCompleted ref false p) ∧
        (run refOf (genesis sp vp first vs a e gr) pre).extRef ref = some rid := by
  have h : ∃ ref, (run refOf (genesis sp vp first vs a e gr) steps).reviews rid = some ref ∧
      (run refOf (genesis sp vp first vs a e gr) steps).extStatus rid = some .pendingAdminReview := by
    generalize run refOf (genesis sp vp first vs a e gr) steps = s at hch
    simp only [step, adminResolve] at hch
    cases h1 : s.reviews rid with
    | none => rw [h1] at hch; exact absurd rfl hch
    | some ref =>
      rw [h1] at hch
      dsimp only at hch
      cases h2 : getRoot s.roots rid with
      | none => rw [h2] at hch; exact absurd rfl hch
      | some d =>
        rw [h2] at hch
        dsimp only at hch
        cases h3 : s.extStatus rid with
        | none => rw [h3] at hch; exact absurd rfl hch
        | some st =>
          rw [h3] at hch
          dsimp only at hch
          by_cases h4 : st ≠ .pendingAdminReview
          · rw [if_pos h4] at hch; exact absurd rfl hch
          · exact ⟨ref, rfl, by rw [← (by simpa using h4 : st = .pendingAdminReview)]⟩
  obtain ⟨ref, h1, h2⟩ := h
  exact ⟨ref, h1, h2, review_origin refOf sp vp first vs a e gr steps rid ref h1⟩

/-- Example: with external validation on, the vote is cancelled, then the administrator accepts; later notifications do nothing. -/
def exExt : List Step :=
  [.environment 31 exVs true true 5, .setThreshold 50, .record 30 77 1 10, .vote exR1 11 true (some 5) true,
   .vote exR1 12 true (some 5) true, .cancelled 107, .adminResolve exR1 true (some 5), .votingCompleted 107 true (some 9),
   .adminResolve exR1 false none]

example : (run exRef exG (exExt.take 6)).reviews exR1 = some 107 ∧
    Event.passed exR1 77 (some 5) ∈ (run exRef exG exExt).log ∧
    (run exRef exG exExt).log.length = (run exRef exG (exExt.take 7)).log.length := by decide +kernel

end Verif.Summary
