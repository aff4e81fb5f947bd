import Verif.Props.Summary

/-!
# C150: the summary pallet honours roots, slot changes, challenges and settings

The statements use none of the pallet's helpers; for a vote that decides, the consequences (`endVoting`) are the subject of C29 to C33.
-/

namespace Verif.Summary

open Verif

variable (refOf : RootId → Nat → Nat)

/-- The range the next root must have: it starts at the next block to process and spans one schedule period (the very first one
includes block 0). -/
def NextRange (s : State) (lastBlock : Nat) : Prop :=
  lastBlock + (if s.nextBlock = 0 then 0 else 1) = s.nextBlock + s.schedulePeriod

/-- A root is proposed or was validated for the range from the next block to `lastBlock`. -/
def RangeTaken (s : State) (lastBlock : Nat) : Prop :=
  (∃ k, s.pending ⟨s.nextBlock, lastBlock⟩ = some k) ∨ ∃ e ∈ s.roots, e.1.range = ⟨s.nextBlock, lastBlock⟩ ∧ e.2.validated = true

/-- **C150, roots.** A root is recorded exactly if it comes from the slot's validator, who is a validator now, carries the next counter
and the next range, nothing is proposed or validated for that range, no vote exists under that id, and the block numbers fit. The vote on
it is then open until the voting period is over, with the quorum of the validators of that moment. -/
theorem C150_root_accepted_iff (s : State) (b hash k who : Nat) :
    ((s.slotValidator = some who ∧ Avn.isValidator s.validators who = true ∧ ∃ s', recordSummary s b hash k who = .ok s') ↔
      s.slotValidator = some who ∧ Avn.isValidator s.validators who = true ∧ k = (s.totalIngresses + 1) % 2 ^ 64 ∧
        NextRange s b ∧ ¬ RangeTaken s b ∧ s.votes ⟨⟨s.nextBlock, b⟩, k⟩ = none ∧ s.nextBlock + s.schedulePeriod < 2 ^ 32 ∧
        s.block + s.votingPeriod < 2 ^ 32) ∧
    ∀ s', recordSummary s b hash k who = .ok s' →
      getRoot s'.roots ⟨⟨s.nextBlock, b⟩, k⟩ = some ⟨hash, some who, false, false, none⟩ ∧
      s'.pending ⟨s.nextBlock, b⟩ = some k ∧ s'.totalIngresses = k ∧
      s'.votes ⟨⟨s.nextBlock, b⟩, k⟩ =
        some ⟨s.validators.length - s.validators.length * 2 / 3, [], [], s.block + s.votingPeriod, s.block⟩ ∧
      s'.log = s.log ++ [.calculated ⟨⟨s.nextBlock, b⟩, k⟩ hash who] := by
  have hnp : neitherPendingNorApproved s ⟨s.nextBlock, b⟩ = false ↔ RangeTaken s b := by
    unfold neitherPendingNorApproved RangeTaken
    cases h : s.pending ⟨s.nextBlock, b⟩ <;> simp
  have ht : targetBlock s = if s.nextBlock + s.schedulePeriod < 2 ^ 32 then .ok (s.nextBlock + s.schedulePeriod - if s.nextBlock = 0 then 0 else 1)
      else .error .overflow := by
    unfold targetBlock addBlocks pow32
    by_cases h1 : s.nextBlock + s.schedulePeriod < 2 ^ 32
    · rw [if_pos h1, if_pos h1]
      dsimp only
      by_cases h2 : s.nextBlock = 0
      · rw [if_pos h2, if_pos h2]; rfl
      · rw [if_neg h2, if_pos (by omega), if_neg h2]
    · rw [if_neg h1, if_neg h1]
  have hb : b = (s.nextBlock + s.schedulePeriod - if s.nextBlock = 0 then 0 else 1) ↔ NextRange s b := by
    unfold NextRange; split <;> omega
  have main : ∀ s', recordSummary s b hash k who = .ok s' ↔ (k = (s.totalIngresses + 1) % 2 ^ 64 ∧ Avn.isValidator s.validators who = true ∧
      s.nextBlock + s.schedulePeriod < 2 ^ 32 ∧ ¬ RangeTaken s b ∧ s.votes ⟨⟨s.nextBlock, b⟩, k⟩ = none ∧ NextRange s b ∧
      s.block + s.votingPeriod < 2 ^ 32) ∧ s' = recordEffects s ⟨⟨s.nextBlock, b⟩, k⟩ hash who (s.block + s.votingPeriod) := by
    intro s'
    unfold recordSummary
    rw [ht]
    dsimp only
    constructor
    · intro h
      split at h
      · cases h
      rename_i h1
      split at h
      · cases h
      rename_i h2
      split at h
      · cases h
      rename_i t h3
      split at h3
      case isFalse => cases h3
      rename_i h4
      injection h3 with h3
      split at h
      · cases h
      rename_i h5
      split at h
      · cases h
      rename_i h6
      split at h
      · cases h
      rename_i h7
      unfold addBlocks pow32 at h
      split at h
      · cases h
      rename_i ve h8
      split at h8
      case isFalse => cases h8
      rename_i h9
      injection h8 with h8
      injection h with h
      refine ⟨⟨?_, by simpa using h2, h4, fun g => h5 (hnp.2 g), by simpa using h6, hb.1 ?_, h9⟩, ?_⟩
      · have : wrapInc64 s.totalIngresses = k := by simpa using h1
        exact this.symm
      · rw [h3]; simpa using h7
      · rw [← h, h8]
    · rintro ⟨⟨h1, h2, h3, h4, h5, h6, h7⟩, rfl⟩
      have e1 : ¬ wrapInc64 s.totalIngresses ≠ k := by intro g; exact g h1.symm
      rw [if_neg e1, if_neg (by simp [h2]), if_pos h3]
      dsimp only
      rw [if_neg (fun g => h4 (hnp.1 g)), if_neg (by simp [h5]), if_neg (by rw [← hb.2 h6]; simp)]
      unfold addBlocks pow32
      rw [if_pos h7]
  constructor
  · constructor
    · rintro ⟨h1, h2, s', h⟩
      obtain ⟨⟨a1, a2, a3, a4, a5, a6, a7⟩, -⟩ := (main s').1 h
      exact ⟨h1, h2, a1, a6, a4, a5, a3, a7⟩
    · rintro ⟨h1, h2, a1, a6, a4, a5, a3, a7⟩
      exact ⟨h1, h2, _, (main _).2 ⟨⟨a1, h2, a3, a4, a5, a6, a7⟩, rfl⟩⟩
  · intro s' h
    obtain ⟨-, rfl⟩ := (main s').1 h
    refine ⟨?_, upd_same _ _ _, rfl, upd_same _ _ _, rfl⟩
    simp [recordEffects, getRoot, putRoot]

/-- **C150, votes.** A vote is taken into account exactly if there is an open vote on that root (its period is not over, the root is the
one proposed for its range and not validated yet), the voter is a validator and has not voted on it, fewer than 256 voted the same way,
and, if this vote decides it, its consequences can be carried out. -/
theorem C150_vote_accepted_iff (s : State) (rid : RootId) (voter : Nat) (approve : Bool) (pub : Option Nat) (prop : Bool) :
    (∃ s', castVote refOf s rid voter approve pub prop = .ok s') ↔
      ∃ v d, s.votes rid = some v ∧ getRoot s.roots rid = some d ∧ d.validated = false ∧ s.pending rid.range = some rid.ingress ∧
        s.block < v.endOfVotingPeriod ∧ Avn.isValidator s.validators voter = true ∧ voter ∉ v.ayes ∧ voter ∉ v.nays ∧
        (if approve then v.ayes.length else v.nays.length) < 256 ∧
        (v.threshold ≤ v.ayes.length + (if approve then 1 else 0) ∨ v.threshold ≤ v.nays.length + (if approve then 0 else 1) →
          ∃ s', endVoting refOf { s with votes := upd s.votes rid (some (if approve then { v with ayes := v.ayes ++ [voter] }
            else { v with nays := v.nays ++ [voter] })) } rid pub prop = .ok s') := by
  have hact : ∀ v, s.votes rid = some v → (sessionActive s rid = true ↔ ∃ d, getRoot s.roots rid = some d ∧ d.validated = false ∧
      s.pending rid.range = some rid.ingress ∧ s.block < v.endOfVotingPeriod) := by
    intro v hv
    unfold sessionActive sessionValid
    rw [hv]
    dsimp only
    cases hd : getRoot s.roots rid with
    | none => simp
    | some d =>
      cases hp : s.pending rid.range with
      | none => simp
      | some k => simp; constructor <;> rintro ⟨a, b, c⟩ <;> exact ⟨by assumption, by assumption, by assumption⟩
  have hact2 : ∀ v w, s.votes rid = some v → w.endOfVotingPeriod = v.endOfVotingPeriod →
      sessionActive { s with votes := upd s.votes rid (some w) } rid = sessionActive s rid := by
    intro v w hv he
    unfold sessionActive sessionValid
    dsimp only
    rw [upd_same, hv]
    dsimp only
    rw [he]
    cases getRoot s.roots rid <;> cases s.pending rid.range <;> rfl
  unfold castVote
  cases hv : s.votes rid with
  | none => simp
  | some v =>
    dsimp only
    have hA := hact v hv
    cases hc : Avn.castVote s.validators (sessionActive s rid) v voter approve with
    | error e =>
      simp only [reduceCtorEq, exists_false, false_iff]
      rintro ⟨w, d, hw, hd, h1, h2, h3, h4, h5, h6, h7, -⟩
      injection hw with hw
      subst hw
      have ha := hA.2 ⟨d, hd, h1, h2, h3⟩
      unfold Avn.castVote Avn.validateVote Avn.maxValidators at hc
      rw [ha, if_neg (by simp [h4]), if_neg (by simp), if_neg (by simp [Avn.Session.hasVoted, h5, h6])] at hc
      dsimp only at hc
      cases approve <;> simp only [Bool.false_eq_true, if_false, if_true] at h7 hc <;> rw [if_pos h7] at hc <;> cases hc
    | ok v' =>
      dsimp only
      obtain ⟨g1, g2, g3, g4⟩ := castVote_ok hc
      have hlen : (if approve then v.ayes.length else v.nays.length) < 256 := by
        unfold Avn.castVote Avn.validateVote Avn.maxValidators at hc
        rw [g2, if_neg (by simp [g1]), if_neg (by simp), if_neg (by simp [g3])] at hc
        dsimp only at hc
        cases approve <;> simp only [Bool.false_eq_true, if_false, if_true] at hc ⊢ <;> split at hc <;>
          first | assumption | cases hc
      have hend : v'.endOfVotingPeriod = v.endOfVotingPeriod := by rw [g4]; split <;> rfl
      have hact' := hact2 v v' hv hend
      rw [hact', g2, Bool.and_true]
      have hout : v'.hasOutcome = true ↔ (v.threshold ≤ v.ayes.length + (if approve then 1 else 0) ∨
          v.threshold ≤ v.nays.length + (if approve then 0 else 1)) := by
        rw [g4]; cases approve <;> simp [Avn.Session.hasOutcome]
      obtain ⟨d, hd, h1, h2, h3⟩ := hA.1 g2
      have hvoted : voter ∉ v.ayes ∧ voter ∉ v.nays := by simpa [Avn.Session.hasVoted] using g3
      constructor
      · intro h
        refine ⟨v, d, rfl, hd, h1, h2, h3, g1, hvoted.1, hvoted.2, hlen, fun ho => ?_⟩
        rw [if_pos (hout.2 ho)] at h
        rw [← g4]; exact h
      · rintro ⟨w, d', hw, -, -, -, -, -, -, -, -, h8⟩
        injection hw with hw
        subst hw
        by_cases ho : v'.hasOutcome = true
        · rw [if_pos ho, g4]; exact h8 (hout.1 ho)
        · rw [if_neg ho]; exact ⟨_, rfl⟩

/-- **C150, slots.** The slot is advanced exactly if its time has come, by its validator while the grace period lasts (and by nobody
alone afterwards), as long as there are validators and the numbers fit. -/
theorem C150_slot_advance_accepted_iff (s : State) (who : Nat) :
    (s.slotValidator = some who ∧ Avn.isValidator s.validators who = true ∧ ∃ s', updateSlot s who = .ok s') ↔
      s.slotValidator = some who ∧ Avn.isValidator s.validators who = true ∧ s.nextSlotAt ≤ s.block ∧ s.block ≤ s.nextSlotAt + s.grace ∧
        s.currentSlot + 1 < 2 ^ 32 ∧ s.nextSlotAt + s.schedulePeriod < 2 ^ 32 := by
  have hpr : Avn.isValidator s.validators who = true → ∀ n, ∃ v, Avn.primaryForBlock s.validators n = .ok v := by
    intro h n
    unfold Avn.primaryForBlock
    have hne : s.validators ≠ [] := by rintro e; rw [e] at h; simp [Avn.isValidator] at h
    rw [if_neg hne]
    have hl : n % s.validators.length < s.validators.length := Nat.mod_lt _ (List.length_pos_iff.2 hne)
    rw [List.getElem?_eq_getElem hl]; exact ⟨_, rfl⟩
  constructor
  · rintro ⟨h1, h2, s', h⟩
    obtain ⟨a1, a2, v, a3, a4, -⟩ := updateSlot_ok h
    unfold canAdvance graceElapsed at a1
    rw [h1] at a1
    split at a1
    · cases a1
    · dsimp only at a1
      split at a1
      · rw [if_pos rfl] at a1; cases a1
      · rename_i h3 h4
        simp at h4
        exact ⟨h1, h2, by omega, by omega, a2, a4⟩
  · rintro ⟨h1, h2, h3, h4, h5, h6⟩
    refine ⟨h1, h2, ?_⟩
    obtain ⟨v, hv⟩ := hpr h2 (s.currentSlot + 1)
    have hc : canAdvance s who = .ok () := by
      unfold canAdvance graceElapsed
      rw [if_neg (by omega), h1]
      dsimp only
      rw [if_neg (by simp; omega), if_neg (by simp)]
    unfold updateSlot addBlocks pow32
    rw [hc]
    dsimp only
    rw [if_pos h5]
    dsimp only
    rw [hv]
    dsimp only
    rw [if_pos h6]
    exact ⟨_, rfl⟩

/-- **C150, challenges of slots.** A validator's challenge is taken exactly if it names the current slot and the slot's validator, is
somebody else's, the grace period is over and the numbers fit; the slot is then advanced. -/
theorem C150_slot_challenge_accepted_iff (s : State) (slot : Option Nat) (challenger challengee who : Nat)
    (hwho : Avn.isValidator s.validators who = true) :
    (∃ s', addChallenge s slot challenger challengee who = .ok s') ↔
      slot = some s.currentSlot ∧ s.slotValidator = some challengee ∧ who ≠ challengee ∧ s.nextSlotAt + s.grace < s.block ∧
        s.currentSlot + 1 < 2 ^ 32 ∧ s.nextSlotAt + s.schedulePeriod < 2 ^ 32 := by
  have hpr : ∀ n, ∃ v, Avn.primaryForBlock s.validators n = .ok v := by
    intro n
    unfold Avn.primaryForBlock
    have hne : s.validators ≠ [] := by rintro e; rw [e] at hwho; simp [Avn.isValidator] at hwho
    rw [if_neg hne]
    have hl : n % s.validators.length < s.validators.length := Nat.mod_lt _ (List.length_pos_iff.2 hne)
    rw [List.getElem?_eq_getElem hl]; exact ⟨_, rfl⟩
  have hval : challengeValid s slot challengee = true ↔
      slot = some s.currentSlot ∧ s.slotValidator = some challengee ∧ s.nextSlotAt + s.grace < s.block := by
    unfold challengeValid graceElapsed
    cases slot with
    | none => simp
    | some n =>
      cases hs : s.slotValidator with
      | none => simp
      | some v =>
        simp only [Bool.and_eq_true, beq_iff_eq, decide_eq_true_eq, Option.some.injEq]
        constructor
        · rintro ⟨⟨rfl, h⟩, rfl⟩; exact ⟨rfl, rfl, by omega⟩
        · rintro ⟨rfl, rfl, h⟩; exact ⟨⟨rfl, by omega⟩, rfl⟩
  unfold addChallenge
  dsimp only
  constructor
  · rintro ⟨s', h⟩
    split at h
    · cases h
    · rename_i h1
      have h1 : challengeValid s slot challengee = true := by simpa using h1
      obtain ⟨b1, b2, b3⟩ := hval.1 h1
      split at h
      · cases h
      · rename_i s2 h2
        obtain ⟨a1, a2, v, a3, a4, -⟩ := updateSlot_ok h2
        refine ⟨b1, b2, ?_, b3, a2, a4⟩
        rintro rfl
        unfold canAdvance graceElapsed at a1
        dsimp only at a1
        rw [b2, if_neg (by omega)] at a1
        dsimp only at a1
        rw [if_pos (by simp; omega), if_pos rfl] at a1
        cases a1
  · rintro ⟨h1, h2, h3, h4, h5, h6⟩
    rw [if_neg (by rw [hval.2 ⟨h1, h2, h4⟩]; simp)]
    obtain ⟨v, hv⟩ := hpr (s.currentSlot + 1)
    have hc : canAdvance { s with log := s.log ++ [.offence .slotNotAdvanced [challengee]] } who = .ok () := by
      unfold canAdvance graceElapsed
      dsimp only
      rw [if_neg (by omega), h2]
      dsimp only
      rw [if_pos (by simp; omega), if_neg h3]
    unfold updateSlot addBlocks pow32
    rw [hc]
    dsimp only
    rw [if_pos h5]
    dsimp only
    rw [hv]
    dsimp only
    rw [if_pos h6]
    exact ⟨_, rfl⟩

/-- **C150, settings.** An administrator's periods are taken exactly if the schedule is at least 30 blocks, the voting period between 25
and 28800 and shorter than the schedule, and the next slot's block fits; a threshold exactly if it is between 1 and 100 percent. -/
theorem C150_settings_accepted_iff (s : State) (sp vp t : Nat) :
    ((∃ s', setPeriods s sp vp = .ok s') ↔ 30 ≤ sp ∧ 25 ≤ vp ∧ vp ≤ 28800 ∧ vp < sp ∧ s.nextBlock + sp < 2 ^ 32) ∧
    ((∃ s', setSchedule s sp = .ok s') ↔
      30 ≤ sp ∧ 25 ≤ s.votingPeriod ∧ s.votingPeriod ≤ 28800 ∧ s.votingPeriod < sp ∧ s.nextBlock + sp < 2 ^ 32) ∧
    ((∃ s', setVoting s vp = .ok s') ↔ 25 ≤ vp ∧ vp ≤ 28800 ∧ vp < s.schedulePeriod) ∧
    ((∃ s', setThreshold s t = .ok s') ↔ 1 ≤ t ∧ t ≤ 100) := by
  have hs : validSchedule sp = if 30 ≤ sp then .ok () else .error .scheduleTooShort := by
    unfold validSchedule minSchedulePeriod; split <;> split <;> first | rfl | omega
  have hv : ∀ a b, (∃ u, validVoting a b = .ok u) ↔ 25 ≤ a ∧ a ≤ 28800 ∧ a < b := by
    intro a b
    unfold validVoting minVotingPeriod maxVotingPeriod
    constructor
    · rintro ⟨u, h⟩
      repeat' split at h
      all_goals first | (cases h; done) | omega
    · rintro ⟨h1, h2, h3⟩
      rw [if_neg (by omega), if_neg (by omega), if_neg (by omega)]; exact ⟨_, rfl⟩
  have hb : (∃ u, addBlocks s.nextBlock sp = .ok u) ↔ s.nextBlock + sp < 2 ^ 32 := by
    unfold addBlocks pow32
    split <;> rename_i h <;> simp [h]
  refine ⟨?_, ?_, ?_, ?_⟩
  · unfold setPeriods
    rw [hs]
    by_cases h1 : 30 ≤ sp
    · rw [if_pos h1]
      dsimp only
      cases h2 : validVoting vp sp with
      | error e =>
        have := hv vp sp; rw [h2] at this
        simp at this ⊢; intro _ a b c; omega
      | ok u =>
        have h2' := (hv vp sp).1 ⟨u, h2⟩
        cases h3 : addBlocks s.nextBlock sp with
        | error e => rw [h3] at hb; simp at hb ⊢; intro _ _ _ _; omega
        | ok w => have := hb.1 ⟨w, h3⟩; simp; omega
    · rw [if_neg h1]; simp; intro; omega
  · unfold setSchedule
    rw [hs]
    by_cases h1 : 30 ≤ sp
    · rw [if_pos h1]
      dsimp only
      cases h2 : validVoting s.votingPeriod sp with
      | error e =>
        have := hv s.votingPeriod sp; rw [h2] at this
        simp at this ⊢; intro _ a b c; omega
      | ok u =>
        have h2' := (hv s.votingPeriod sp).1 ⟨u, h2⟩
        cases h3 : addBlocks s.nextBlock sp with
        | error e => rw [h3] at hb; simp at hb ⊢; intro _ _ _ _; omega
        | ok w => have := hb.1 ⟨w, h3⟩; simp; omega
    · rw [if_neg h1]; simp; intro; omega
  · unfold setVoting
    cases h2 : validVoting vp s.schedulePeriod with
    | error e => have := hv vp s.schedulePeriod; rw [h2] at this; simp at this ⊢; exact this
    | ok u => have := (hv vp s.schedulePeriod).1 ⟨u, h2⟩; simp; exact this
  · unfold setThreshold
    split <;> rename_i h <;> simp <;> omega

/-! ### Examples -/

example : (recordSummary (run exRef exG (exSteps.take 1)) 30 77 1 10).isOk = true ∧ NextRange (run exRef exG (exSteps.take 1)) 30 ∧
    (castVote exRef (run exRef exG (exSteps.take 2)) exR1 11 true (some 5) true).isOk = true ∧
    (castVote exRef (run exRef exG (exSteps.take 3)) exR1 12 true (some 5) true).isOk = true ∧
    (updateSlot (run exRef exG (exSteps.take 4)) 10).isOk = true := by unfold NextRange; decide +kernel
/-- A challenge that is taken, and settings that are and are not. -/
example : (addChallenge (run exRef exG [.environment 46 exVs true false 5]) (some 0) 11 10 11).isOk = true ∧
    (setPeriods exG 30 25).isOk = true ∧ (setPeriods exG 30 30).isOk = false ∧ (setThreshold exG 101).isOk = false := by decide +kernel

end Verif.Summary
