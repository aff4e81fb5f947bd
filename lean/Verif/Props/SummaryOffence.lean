import Verif.Props.Summary

/-!
# C83: validators are reported for exactly what they did

The log of a history says when a slot was advanced, when a root was validated and when a vote ended. The offence reports are
compared with what can be read off those entries (`summaryPublished`, `slotHolder`) and with the stored votes.
-/

namespace Verif.Summary

open Verif

variable (refOf : RootId → Nat → Nat)

/-! ### Specification, read off the log -/

/-- One log entry's effect on "a summary has been validated since the slot began". -/
def publishedNext (b : Bool) : Event → Bool
  | .validated .. => true
  | .slotAdvanced .. => false
  | _ => b

/-- A root has been validated since the last slot advance (the very first slot counts as having one). -/
def summaryPublished (log : List Event) : Bool := log.foldl publishedNext true

/-- One log entry's effect on who holds the slot. -/
def holderNext (v : Nat) : Event → Nat
  | .slotAdvanced _ _ w _ => w
  | _ => v

/-- The validator in charge of the current slot: the one named by the last slot advance, or the first one. -/
def slotHolder (first : Nat) (log : List Event) : Nat := log.foldl holderNext first

/-- Entries that say nothing about slots, decisions or offences. -/
def plain : Event → Bool
  | .offence .. => false
  | .validated .. => false
  | .slotAdvanced .. => false
  | .challengeAdded .. => false
  | .votingEnded .. => false
  | _ => true

/-! ### What one call does to slots, decisions and offences -/

/-- Slot number, slot validator and the slot of the last summary. -/
def SameSlot (s s' : State) : Prop :=
  s'.currentSlot = s.currentSlot ∧ s'.slotValidator = s.slotValidator ∧ s'.lastSummarySlot = s.lastSummarySlot

/-- The four kinds of calls. -/
inductive Eff (s : State) : State → Prop
  | quiet {s' : State} (evs : List Event) (hs : SameSlot s s') (hl : s'.log = s.log ++ evs) (hp : ∀ e ∈ evs, plain e = true) : Eff s s'
  | approved {s' : State} (rid : RootId) (x : Nat) (v : Avn.Session) (evs : List Event) (hp : ∀ e ∈ evs, plain e = true)
      (h1 : s'.currentSlot = s.currentSlot) (h2 : s'.slotValidator = s.slotValidator) (h3 : s'.lastSummarySlot = s.currentSlot)
      (hl : s'.log = s.log ++ (evs ++ [.offence .rejectedValidRoot v.nays, .validated rid x, .votingEnded rid true]))
      (hv : s'.votes rid = some v) (ha : v.isApproved = true) : Eff s s'
  | rejected {s' : State} (rid : RootId) (v : Avn.Session) (d : RootData) (c : Nat) (hs : SameSlot s s')
      (hl : s'.log = s.log ++ [.offence .createdInvalidRoot [c], .offence .approvedInvalidRoot v.ayes, .votingEnded rid false])
      (hv : s'.votes rid = some v) (ha : v.isApproved = false) (hd : getRoot s'.roots rid = some d) (hc : d.addedBy = some c) : Eff s s'
  | advanced {s' : State} (who v next : Nat) (h1 : s'.currentSlot = s.currentSlot + 1) (h2 : s'.slotValidator = some v)
      (h3 : s'.lastSummarySlot = s.lastSummarySlot)
      (hl : s'.log = s.log ++ (noSummaryOffence s ++ [.slotAdvanced who (s.currentSlot + 1) v next])) : Eff s s'
  | challenged {s' : State} (who v next k a c : Nat) (h1 : s'.currentSlot = s.currentSlot + 1) (h2 : s'.slotValidator = some v)
      (h3 : s'.lastSummarySlot = s.lastSummarySlot) (hb : Absent s k c)
      (hl : s'.log = s.log ++ (.offence .slotNotAdvanced [c] :: (noSummaryOffence s ++
        [.slotAdvanced who (s.currentSlot + 1) v next, .challengeAdded k a c]))) : Eff s s'

theorem Eff.none (s : State) : Eff s s := .quiet [] ⟨rfl, rfl, rfl⟩ (by simp) (by simp)

variable {refOf}

theorem eff_commit {s : State} {r : Except Err State} (h : ∀ s', r = .ok s' → Eff s s') : Eff s (commit s r) := by
  cases r with
  | error e => exact .none s
  | ok s' => exact h s' rfl

theorem processed_quiet {s s1 : State} {rid : RootId} {d : RootData} {pub : Option Nat} (h : Processed s rid d pub s1) :
    SameSlot s s1 ∧ s1.votes = s.votes ∧ ∃ evs, s1.log = s.log ++ evs ∧ ∀ e ∈ evs, plain e = true := by
  cases h with
  | empty => exact ⟨⟨rfl, rfl, rfl⟩, rfl, [], by simp, by simp⟩
  | sent tx => exact ⟨⟨rfl, rfl, rfl⟩, rfl, [_], rfl, by simp [plain]⟩
  | anchored => exact ⟨⟨rfl, rfl, rfl⟩, rfl, [_], rfl, by simp [plain]⟩

theorem accepted_quiet {s s1 : State} {rid : RootId} {d : RootData} {pub : Option Nat} (h : Accepted refOf s rid d pub s1) :
    SameSlot s s1 ∧ s1.votes = s.votes ∧ ∃ evs, s1.log = s.log ++ evs ∧ ∀ e ∈ evs, plain e = true := by
  cases h with
  | submitted => exact ⟨⟨rfl, rfl, rfl⟩, rfl, [], by simp, by simp⟩
  | processed _ hp => exact processed_quiet hp

theorem eff_endVoting {s s1 s' : State} {rid : RootId} {p : Option Nat} {q : Bool} (h0 : s1 = { s with votes := s1.votes })
    (h : endVoting refOf s1 rid p q = .ok s') : Eff s s' := by
  have g1 : s1.currentSlot = s.currentSlot := by rw [h0]
  have g2 : s1.slotValidator = s.slotValidator := by rw [h0]
  have g3 : s1.lastSummarySlot = s.lastSummarySlot := by rw [h0]
  have g4 : s1.log = s.log := by rw [h0]
  unfold endVoting at h
  by_cases h1 : sessionValid s1 rid = false
  · rw [if_pos h1] at h; simp at h
  rw [if_neg h1] at h
  cases hv : s1.votes rid with
  | none => rw [hv] at h; simp at h
  | some v =>
    cases hd : getRoot s1.roots rid with
    | none => rw [hv, hd] at h; simp at h
    | some d =>
      rw [hv, hd] at h
      dsimp only at h
      by_cases h2 : (v.hasOutcome || decide (s1.block ≥ v.endOfVotingPeriod)) = false
      · rw [if_pos h2] at h; simp at h
      rw [if_neg h2] at h
      by_cases h3 : v.isApproved = true
      · rw [if_pos h3] at h
        cases ha : acceptRoot refOf s1 rid d p q with
        | error e => rw [ha] at h; simp at h
        | ok s2 =>
          rw [ha] at h
          dsimp only at h
          cases hb : addBlocks rid.range.toBlock 1 with
          | error e => rw [hb] at h; simp at h
          | ok n =>
            rw [hb] at h
            dsimp only at h
            injection h with h
            subst h
            obtain ⟨⟨e1, e2, e3⟩, e4, evs, e5, e6⟩ := accepted_quiet (acceptRoot_ok hd ha)
            refine .approved rid d.rootHash v evs e6 (e1.trans g1) (e2.trans g2) (e1.trans g1) ?_ ?_ h3
            · show s2.log ++ _ = _
              rw [e5, g4, List.append_assoc]
            · show s2.votes rid = _
              rw [e4, hv]
      · rw [if_neg h3] at h
        cases hc : d.addedBy with
        | none => rw [hc] at h; simp at h
        | some c =>
          rw [hc] at h
          dsimp only at h
          injection h with h
          subst h
          exact .rejected rid v d c ⟨g1, g2, g3⟩ (by show s1.log ++ _ = _; rw [g4]) hv (by simpa using h3) hd hc

theorem step_eff (s : State) (op : Step) : Eff s (step refOf s op) := by
  cases op with
  | record b h k who =>
    simp only [step]
    by_cases hg : s.slotValidator = some who ∧ Avn.isValidator s.validators who = true
    · rw [if_pos hg]
      refine eff_commit (fun s' hs => ?_)
      unfold recordSummary at hs
      split at hs
      · simp at hs
      · split at hs
        · simp at hs
        · dsimp only at hs
          split at hs
          · simp at hs
          · split at hs
            · simp at hs
            · split at hs
              · simp at hs
              · split at hs
                · simp at hs
                · split at hs
                  · simp at hs
                  · injection hs with hs
                    subst hs
                    exact .quiet [_] ⟨rfl, rfl, rfl⟩ rfl (by simp [plain])
    · rw [if_neg hg]; exact .none s
  | vote rid v a p q =>
    simp only [step]
    refine eff_commit (fun s' hs => ?_)
    unfold castVote at hs
    split at hs
    · simp at hs
    · split at hs
      · simp at hs
      · dsimp only at hs
        split at hs
        · exact eff_endVoting rfl hs
        · injection hs with hs
          subst hs
          exact .quiet [] ⟨rfl, rfl, rfl⟩ (by simp) (by simp)
  | endVoting rid who p q =>
    simp only [step]
    split
    · exact eff_commit (fun s' hs => eff_endVoting rfl hs)
    · exact .none s
  | advanceSlot who =>
    simp only [step]
    split
    · refine eff_commit (fun s' hs => ?_)
      obtain ⟨_, _, v, _, _, rfl⟩ := updateSlot_ok hs
      exact .advanced who v (s.nextSlotAt + s.schedulePeriod) rfl rfl rfl (by simp)
    · exact .none s
  | challenge n a b who =>
    simp only [step]
    split
    · refine eff_commit (fun s' hs => ?_)
      unfold addChallenge at hs
      by_cases h1 : challengeValid s n b = false
      · rw [if_pos h1] at hs; simp at hs
      rw [if_neg h1] at hs
      dsimp only at hs
      obtain ⟨k, rfl, hb⟩ := (challengeValid_iff s n b).1 (by simpa using h1)
      cases hu : updateSlot { s with log := s.log ++ [.offence .slotNotAdvanced [b]] } who with
      | error e => rw [hu] at hs; simp at hs
      | ok s2 =>
        rw [hu] at hs
        dsimp only at hs
        injection hs with hs
        subst hs
        obtain ⟨_, _, v, _, _, rfl⟩ := updateSlot_ok hu
        refine .challenged who v (s.nextSlotAt + s.schedulePeriod) k a b rfl rfl rfl hb ?_
        have e : noSummaryOffence { s with log := s.log ++ [.offence .slotNotAdvanced [b]] } = noSummaryOffence s := rfl
        rw [e]
        simp
    · exact .none s
  | setPeriods a b =>
    refine eff_commit (fun s' hs => ?_)
    obtain ⟨_, _, _, _, rfl⟩ := setPeriods_ok hs; exact .quiet [] ⟨rfl, rfl, rfl⟩ (by simp) (by simp)
  | setSchedule a =>
    refine eff_commit (fun s' hs => ?_)
    obtain ⟨_, _, _, _, rfl⟩ := setSchedule_ok hs; exact .quiet [] ⟨rfl, rfl, rfl⟩ (by simp) (by simp)
  | setVoting a =>
    refine eff_commit (fun s' hs => ?_)
    obtain ⟨_, _, _, rfl⟩ := setVoting_ok hs; exact .quiet [] ⟨rfl, rfl, rfl⟩ (by simp) (by simp)
  | setThreshold a =>
    refine eff_commit (fun s' hs => ?_)
    unfold setThreshold at hs
    split at hs
    · injection hs with hs; subst hs; exact .quiet [] ⟨rfl, rfl, rfl⟩ (by simp) (by simp)
    · simp at hs
  | adminResolve rid ac p =>
    refine eff_commit (fun s' hs => ?_)
    unfold adminResolve at hs
    split at hs
    · simp at hs
    · split at hs
      · simp at hs
      · split at hs
        · simp at hs
        · split at hs
          · simp at hs
          · cases ac with
            | false =>
              simp only [Bool.false_eq_true, if_false] at hs
              injection hs with hs; subst hs
              exact .quiet [_] ⟨rfl, rfl, rfl⟩ rfl (by simp [plain])
            | true =>
              simp only [if_true] at hs
              cases hp : processAccepted s rid p with
              | error e => rw [hp] at hs; simp at hs
              | ok s1 =>
                rw [hp] at hs
                dsimp only at hs
                injection hs with hs; subst hs
                obtain ⟨d, _, hp'⟩ := processAccepted_ok hp
                obtain ⟨⟨e1, e2, e3⟩, _, evs, e5, e6⟩ := processed_quiet hp'
                refine .quiet (evs ++ [.resolved rid true]) ⟨e1, e2, e3⟩ ?_ ?_
                · show s1.log ++ _ = _
                  rw [e5, List.append_assoc]
                · intro e he
                  rcases List.mem_append.1 he with h | h
                  · exact e6 e h
                  · simp at h; subst h; rfl
  | votingCompleted r ok p =>
    simp only [step, votingCompleted]
    cases s.extRef r with
    | none => exact .none s
    | some rid =>
      dsimp only
      cases ok with
      | false => exact .quiet [_] ⟨rfl, rfl, rfl⟩ rfl (by simp [plain])
      | true =>
        simp only [if_true]
        cases getRoot s.roots rid with
        | none => exact .none s
        | some d =>
          dsimp only
          cases hp : processAccepted { s with extStatus := upd s.extStatus rid (some .accepted) } rid p with
          | error e => exact .quiet [] ⟨rfl, rfl, rfl⟩ (by simp) (by simp)
          | ok s2 =>
            obtain ⟨d, _, hp'⟩ := processAccepted_ok hp
            obtain ⟨⟨e1, e2, e3⟩, _, evs, e5, e6⟩ := processed_quiet hp'
            exact .quiet evs ⟨e1, e2, e3⟩ e5 e6
  | cancelled r =>
    simp only [step, cancelled]
    cases s.extRef r with
    | none => exact .none s
    | some rid => exact .quiet [_] ⟨rfl, rfl, rfl⟩ rfl (by simp [plain])
  | processResult tx m ok =>
    simp only [step, processResult]
    cases m with
    | false => exact .none s
    | true =>
      simp only [if_true]
      cases s.txIdToRoot tx with
      | none => exact .none s
      | some rid =>
        dsimp only
        cases ok with
        | false => exact .none s
        | true => exact .quiet [_] ⟨rfl, rfl, rfl⟩ rfl (by simp [plain])
  | environment b vs a e g => exact .quiet [] ⟨rfl, rfl, rfl⟩ (by simp [step]) (by simp)

/-! ### The stored slot data agree with the log -/

theorem published_append (a b : List Event) : summaryPublished (a ++ b) = b.foldl publishedNext (summaryPublished a) := by
  simp [summaryPublished]

theorem holder_append (first : Nat) (a b : List Event) : slotHolder first (a ++ b) = b.foldl holderNext (slotHolder first a) := by
  simp [slotHolder]

theorem plain_published {evs : List Event} (h : ∀ e ∈ evs, plain e = true) (b : Bool) : evs.foldl publishedNext b = b := by
  induction evs generalizing b with
  | nil => rfl
  | cons e l ih =>
    have h1 : publishedNext b e = b := by
      have := h e (by simp)
      cases e <;> first | rfl | simp [plain] at this
    rw [List.foldl_cons, h1]
    exact ih (fun e he => h e (by simp [he])) b

theorem plain_holder {evs : List Event} (h : ∀ e ∈ evs, plain e = true) (b : Nat) : evs.foldl holderNext b = b := by
  induction evs generalizing b with
  | nil => rfl
  | cons e l ih =>
    have h1 : holderNext b e = b := by
      have := h e (by simp)
      cases e <;> first | rfl | simp [plain] at this
    rw [List.foldl_cons, h1]
    exact ih (fun e he => h e (by simp [he])) b

/-- Slot data and log agree. -/
structure SlotInv (first : Nat) (s : State) : Prop where
  le : s.lastSummarySlot ≤ s.currentSlot
  pub : summaryPublished s.log = true ↔ s.lastSummarySlot = s.currentSlot
  holder : s.slotValidator = some (slotHolder first s.log)

theorem noSummary_published (s : State) (b : Bool) : (noSummaryOffence s).foldl publishedNext b = b := by
  unfold noSummaryOffence
  split
  · split <;> rfl
  · rfl

theorem noSummary_holder (s : State) (b : Nat) : (noSummaryOffence s).foldl holderNext b = b := by
  unfold noSummaryOffence
  split
  · split <;> rfl
  · rfl

theorem SlotInv.eff {first : Nat} {s s' : State} (hi : SlotInv first s) (h : Eff s s') : SlotInv first s' := by
  cases h with
  | quiet evs hs hl hp =>
    refine ⟨by rw [hs.1, hs.2.2]; exact hi.le, ?_, ?_⟩
    · rw [hl, published_append, plain_published hp, hs.1, hs.2.2]; exact hi.pub
    · rw [hl, holder_append, plain_holder hp, hs.2.1]; exact hi.holder
  | approved rid x v evs hp h1 h2 h3 hl hv ha =>
    refine ⟨by rw [h1, h3], ?_, ?_⟩
    · rw [hl, published_append, List.foldl_append, h1, h3]
      simp [publishedNext]
    · rw [hl, holder_append, List.foldl_append, plain_holder hp, h2]
      simp only [List.foldl_cons, List.foldl_nil, holderNext]
      exact hi.holder
  | rejected rid v d c hs hl hv ha hd hc =>
    refine ⟨by rw [hs.1, hs.2.2]; exact hi.le, ?_, ?_⟩
    · rw [hl, published_append, hs.1, hs.2.2]
      simp only [List.foldl_cons, List.foldl_nil, publishedNext]
      exact hi.pub
    · rw [hl, holder_append, hs.2.1]
      simp only [List.foldl_cons, List.foldl_nil, holderNext]
      exact hi.holder
  | advanced who v next h1 h2 h3 hl =>
    have := hi.le
    refine ⟨by omega, ?_, ?_⟩
    · rw [hl, published_append, List.foldl_append, h1, h3]
      simp only [List.foldl_cons, List.foldl_nil, publishedNext, Bool.false_eq_true, false_iff]
      omega
    · rw [hl, holder_append, List.foldl_append, h2]
      simp [holderNext]
  | challenged who v next k a c h1 h2 h3 hb hl =>
    have := hi.le
    refine ⟨by omega, ?_, ?_⟩
    · rw [hl, published_append, List.foldl_cons, List.foldl_append, h1, h3]
      simp only [List.foldl_cons, List.foldl_nil, publishedNext, Bool.false_eq_true, false_iff]
      omega
    · rw [hl, holder_append, List.foldl_cons, List.foldl_append, h2]
      simp [holderNext]

theorem slotInv_run (sp vp first : Nat) (vs : List Avn.Validator) (a e : Bool) (g : Nat) (steps : List Step) :
    SlotInv first (run refOf (genesis sp vp first vs a e g) steps) := by
  induction steps using List.reverseRecOn with
  | nil => exact ⟨Nat.le_refl _, by simp [run, genesis, summaryPublished], rfl⟩
  | append_singleton steps op ih => rw [run_snoc]; exact ih.eff (step_eff _ _)

theorem noSummary_eq {first : Nat} {s : State} (hi : SlotInv first s) :
    noSummaryOffence s = if summaryPublished s.log then [] else [.offence .noSummaryCreated [slotHolder first s.log]] := by
  unfold noSummaryOffence
  rw [hi.holder]
  dsimp only
  by_cases h : summaryPublished s.log = true
  · have := hi.pub.1 h
    rw [if_pos h, if_neg (by omega)]
  · have h1 : s.lastSummarySlot ≠ s.currentSlot := fun e => h (hi.pub.2 e)
    have h2 := hi.le
    rw [if_neg h, if_pos (by omega)]

/-! ### C83 -/

/-- What a call may add to the log of a history in which `first` held the first slot, as far as offences are concerned:
the whole content of C83. `voteOf` and `creatorOf` are the votes and root proposers stored after the call. -/
inductive OffencesDue (first : Nat) (log : List Event) (voteOf : RootId → Option Avn.Session) (creatorOf : RootId → Option Nat) :
    List Event → Prop
  /-- Nothing is decided and no slot ends: nobody is reported. -/
  | nobody (evs : List Event) (hp : ∀ e ∈ evs, plain e = true) : OffencesDue first log voteOf creatorOf evs
  /-- A root is approved: exactly those who voted against it are reported. -/
  | approved (evs : List Event) (rid : RootId) (x : Nat) (v : Avn.Session) (hp : ∀ e ∈ evs, plain e = true)
      (hv : voteOf rid = some v) (ha : v.isApproved = true) :
      OffencesDue first log voteOf creatorOf (evs ++ [.offence .rejectedValidRoot v.nays, .validated rid x, .votingEnded rid true])
  /-- A root is not approved: exactly its proposer and those who voted for it are reported. -/
  | rejected (rid : RootId) (v : Avn.Session) (c : Nat) (hv : voteOf rid = some v) (ha : v.isApproved = false)
      (hc : creatorOf rid = some c) :
      OffencesDue first log voteOf creatorOf
        [.offence .createdInvalidRoot [c], .offence .approvedInvalidRoot v.ayes, .votingEnded rid false]
  /-- A slot ends in which a root was validated: nobody is reported. -/
  | goodSlot (who n v next : Nat) (h : summaryPublished log = true) :
      OffencesDue first log voteOf creatorOf [.slotAdvanced who n v next]
  /-- A slot ends in which no root was validated: exactly its holder is reported. -/
  | voidSlot (who n v next : Nat) (h : summaryPublished log = false) :
      OffencesDue first log voteOf creatorOf
        [.offence .noSummaryCreated [slotHolder first log], .slotAdvanced who n v next]
  /-- A slot with a summary is ended by a challenge: exactly its holder is reported, for not ending it. -/
  | goodSlotChallenged (who n v next k a : Nat) (h : summaryPublished log = true) :
      OffencesDue first log voteOf creatorOf
        [.offence .slotNotAdvanced [slotHolder first log], .slotAdvanced who n v next, .challengeAdded k a (slotHolder first log)]
  /-- A slot without a summary is ended by a challenge: exactly its holder is reported, for both. -/
  | voidSlotChallenged (who n v next k a : Nat) (h : summaryPublished log = false) :
      OffencesDue first log voteOf creatorOf
        [.offence .slotNotAdvanced [slotHolder first log], .offence .noSummaryCreated [slotHolder first log],
          .slotAdvanced who n v next, .challengeAdded k a (slotHolder first log)]

/-- **C83.** In every history, what the next call appends to the log is one of the cases of `OffencesDue`: offences are reported exactly
against those who voted against an approved root, the proposer and the supporters of a root that was not approved, the holder of a slot
that ends without a summary having been validated during it, and the holder of a slot ended by a challenge — and never otherwise. -/
theorem C83_offences_are_exactly_those_due (sp vp first : Nat) (vs : List Avn.Validator) (a e : Bool) (g : Nat) (steps : List Step) (op : Step) :
    ∃ evs, (run refOf (genesis sp vp first vs a e g) (steps ++ [op])).log = (run refOf (genesis sp vp first vs a e g) steps).log ++ evs ∧
      OffencesDue first (run refOf (genesis sp vp first vs a e g) steps).log
        (run refOf (genesis sp vp first vs a e g) (steps ++ [op])).votes
        (fun rid => (getRoot (run refOf (genesis sp vp first vs a e g) (steps ++ [op])).roots rid).bind (·.addedBy)) evs := by
  have hi := slotInv_run (refOf := refOf) sp vp first vs a e g steps
  rw [run_snoc]
  generalize run refOf (genesis sp vp first vs a e g) steps = s at hi ⊢
  have he := step_eff (refOf := refOf) s op
  generalize step refOf s op = s' at he ⊢
  have hno := noSummary_eq hi
  cases he with
  | quiet evs hs hl hp => exact ⟨evs, hl, .nobody evs hp⟩
  | approved rid x v evs hp h1 h2 h3 hl hv ha => exact ⟨_, hl, .approved evs rid x v hp hv ha⟩
  | rejected rid v d c hs hl hv ha hd hc =>
    exact ⟨_, hl, .rejected rid v c hv ha (by rw [hd]; exact hc)⟩
  | advanced who v next h1 h2 h3 hl =>
    refine ⟨_, hl, ?_⟩
    rw [hno]
    by_cases h : summaryPublished s.log = true
    · rw [if_pos h]; exact .goodSlot _ _ _ _ h
    · rw [if_neg h]; exact .voidSlot _ _ _ _ (by simpa using h)
  | challenged who v next k a c h1 h2 h3 hb hl =>
    refine ⟨_, hl, ?_⟩
    have hc : c = slotHolder first s.log := by
      have := hb.2.1; rw [hi.holder] at this; exact (Option.some.inj this).symm
    rw [hno, hc]
    by_cases h : summaryPublished s.log = true
    · rw [if_pos h]; exact .goodSlotChallenged _ _ _ _ _ _ h
    · rw [if_neg h]; exact .voidSlotChallenged _ _ _ _ _ _ (by simpa using h)

/-- **C83** (nobody is accused for a slot they did not hold): every `noSummaryCreated` or `slotNotAdvanced` report in a history names
exactly the validator who held the slot when the report was made. -/
theorem C83_slot_offences_name_the_holder (sp vp first : Nat) (vs : List Avn.Validator) (a e : Bool) (g : Nat) (steps : List Step)
    (ty : Offence) (hty : ty = .noSummaryCreated ∨ ty = .slotNotAdvanced) (who : List Nat)
    (h : Event.offence ty who ∈ (run refOf (genesis sp vp first vs a e g) steps).log) :
    ∃ pre op post, steps = pre ++ op :: post ∧ who = [slotHolder first (run refOf (genesis sp vp first vs a e g) pre).log] ∧
      (run refOf (genesis sp vp first vs a e g) (pre ++ [op])).currentSlot =
        (run refOf (genesis sp vp first vs a e g) pre).currentSlot + 1 ∧
      (ty = .noSummaryCreated → summaryPublished (run refOf (genesis sp vp first vs a e g) pre).log = false) := by
  induction steps using List.reverseRecOn with
  | nil => simp [run, genesis] at h
  | append_singleton steps op ih =>
    by_cases hin : Event.offence ty who ∈ (run refOf (genesis sp vp first vs a e g) steps).log
    · obtain ⟨pre, o, post, h1, h2⟩ := ih hin
      exact ⟨pre, o, post ++ [op], by rw [h1]; simp, h2⟩
    · refine ⟨steps, op, [], rfl, ?_⟩
      rw [run_snoc] at h ⊢
      have hi := slotInv_run (refOf := refOf) sp vp first vs a e g steps
      generalize run refOf (genesis sp vp first vs a e g) steps = s at h hi hin ⊢
      have he := step_eff (refOf := refOf) s op
      generalize step refOf s op = s' at he h ⊢
      have hno := noSummary_eq hi
      have hno' : Event.offence ty who ∈ noSummaryOffence s →
          who = [slotHolder first s.log] ∧ summaryPublished s.log = false := by
        intro hm
        rw [hno] at hm
        by_cases hp : summaryPublished s.log = true
        · rw [if_pos hp] at hm; simp at hm
        · rw [if_neg hp] at hm
          simp only [List.mem_singleton, Event.offence.injEq] at hm
          exact ⟨hm.2, by simpa using hp⟩
      cases he with
      | quiet evs hs hl hp =>
        rw [hl, List.mem_append] at h
        rcases h with h | h
        · exact absurd h hin
        · exact absurd (hp _ h) (by simp [plain])
      | approved rid x v evs hp h1 h2 h3 hl hv ha =>
        rw [hl] at h
        simp only [List.mem_append, List.mem_cons, Event.offence.injEq, List.not_mem_nil, or_false, reduceCtorEq] at h
        rcases h with h | h | ⟨rfl, _⟩
        · exact absurd h hin
        · exact absurd (hp _ h) (by simp [plain])
        · simp at hty
      | rejected rid v d c hs hl hv ha hd hc =>
        rw [hl] at h
        simp only [List.mem_append, List.mem_cons, Event.offence.injEq, List.not_mem_nil, or_false, reduceCtorEq] at h
        rcases h with h | ⟨rfl, _⟩ | ⟨rfl, _⟩
        · exact absurd h hin
        · simp at hty
        · simp at hty
      | advanced w v next h1 h2 h3 hl =>
        rw [hl] at h
        simp only [List.mem_append, List.mem_cons, List.not_mem_nil, or_false, reduceCtorEq] at h
        rcases h with h | h
        · exact absurd h hin
        · exact ⟨(hno' h).1, h1, fun _ => (hno' h).2⟩
      | challenged w v next k a c h1 h2 h3 hb hl =>
        rw [hl] at h
        simp only [List.mem_append, List.mem_cons, Event.offence.injEq, List.not_mem_nil, or_false, reduceCtorEq] at h
        rcases h with h | ⟨rfl, rfl⟩ | h
        · exact absurd h hin
        · refine ⟨?_, h1, fun hh => by simp at hh⟩
          have := hb.2.1; rw [hi.holder] at this; rw [Option.some.inj this]
        · exact ⟨(hno' h).1, h1, fun _ => (hno' h).2⟩

/-- Two slots: in the first a root is validated against one `no` vote and the slot advances; the second one is left without a summary and
ended by a challenge. -/
def exOff : List Step :=
  [.environment 30 exVs true false 5, .record 30 77 1 10, .vote exR1 10 true (some 5) true, .vote exR1 11 false none true,
   .vote exR1 12 true (some 5) true, .advanceSlot 10, .environment 70 exVs true false 5, .challenge (some 1) 12 11 12]

example : (run exRef exG exOff).log.filter (fun e => !plain e) =
    [.offence .rejectedValidRoot [11], .validated exR1 77, .votingEnded exR1 true, .slotAdvanced 10 1 11 60,
     .offence .slotNotAdvanced [11], .offence .noSummaryCreated [11], .slotAdvanced 12 2 12 90, .challengeAdded 1 12 11] ∧
    summaryPublished (run exRef exG (exOff.take 5)).log = true ∧ summaryPublished (run exRef exG (exOff.take 7)).log = false ∧
    slotHolder 10 (run exRef exG (exOff.take 7)).log = 11 := by decide +kernel

end Verif.Summary
