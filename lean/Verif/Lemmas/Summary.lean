import Verif.Model.Summary
import Verif.Lemmas.Avn
import Mathlib.Data.List.Induction

namespace Verif.Summary

open Verif

/-! ### The roots map -/

@[simp] theorem getRoot_put (l : List (RootId × RootData)) (rid x : RootId) (d : RootData) :
    getRoot (putRoot l rid d) x = if x = rid then some d else getRoot l x := by
  unfold getRoot putRoot
  by_cases h : x = rid
  · subst h; simp
  · have h1 : (rid == x) = false := by simpa using fun e => h e.symm
    simp only [List.find?_cons, h1, if_neg h]
    congr 1
    induction l with
    | nil => rfl
    | cons e l ih =>
      by_cases he : e.1 = rid
      · have h2 : (e.1 == x) = false := by rw [he]; exact h1
        simp [he, ih, h1]
      · by_cases hx : e.1 = x
        · simp [List.filter_cons, he, hx, h]
        · simp [List.filter_cons, he, hx, ih]

theorem getRoot_mutate (l : List (RootId × RootData)) (rid x : RootId) (f : RootData → RootData) :
    getRoot (mutateRoot l rid f) x = if x = rid then some (f ((getRoot l rid).getD .dflt)) else getRoot l x := by
  simp [mutateRoot]

theorem none_validated {l : List (RootId × RootData)} {r : Range}
    (h : l.any (fun e => e.1.range == r && e.2.validated) = false) (k : Nat) (d : RootData)
    (hg : getRoot l ⟨r, k⟩ = some d) : d.validated = false := by
  unfold getRoot at hg
  obtain ⟨e, he, hd⟩ := Option.map_eq_some_iff.1 hg
  have hm := List.mem_of_find?_eq_some he
  have hk := List.find?_some he
  have := List.any_eq_false.1 h e hm
  have hk' : e.1 = ⟨r, k⟩ := by simpa using hk
  rw [hk', hd] at this
  simpa using this

/-! ### Elementary transitions -/

/-- Slot related log entries. -/
def slotEvent : Event → Bool
  | .slotAdvanced .. => true
  | .challengeAdded .. => true
  | .offence .. => true
  | _ => false

/-- The part of the state that only concerns slots and configuration may change arbitrarily. -/
def Frame (s s' : State) : Prop :=
  s'.nextBlock = s.nextBlock ∧ s'.txIdToRoot = s.txIdToRoot ∧ s'.roots = s.roots ∧ s'.votes = s.votes ∧
  s'.pending = s.pending ∧ s'.extRef = s.extRef ∧ s'.reviews = s.reviews ∧
  s'.totalIngresses = s.totalIngresses

/-- A successful `process_accepted_root`: nothing for an empty root, else publication or anchoring. -/
inductive Processed (s : State) (rid : RootId) (d : RootData) (pub : Option Nat) : State → Prop
  | empty (h : d.rootHash = 0) : Processed s rid d pub s
  | sent (tx : Nat) (h : d.rootHash ≠ 0) (hp : pub = some tx) : Processed s rid d pub { s with
      roots := mutateRoot s.roots rid (fun d => { d with txId := some tx })
      txIdToRoot := upd s.txIdToRoot tx (some rid)
      log := s.log ++ [.passed rid d.rootHash (some tx)] }
  | anchored (h : d.rootHash ≠ 0) : Processed s rid d pub { s with
      anchorCounter := s.anchorCounter + 1
      anchorRoots := upd s.anchorRoots s.anchorCounter (some d.rootHash)
      log := s.log ++ [.passed rid d.rootHash none] }

theorem processAccepted_ok {s s1 : State} {rid : RootId} {pub : Option Nat} (h : processAccepted s rid pub = .ok s1) :
    ∃ d, getRoot s.roots rid = some d ∧ Processed s rid d pub s1 := by
  unfold processAccepted at h
  cases hg : getRoot s.roots rid with
  | none => rw [hg] at h; simp at h
  | some d =>
    rw [hg] at h
    dsimp only at h
    refine ⟨d, rfl, ?_⟩
    by_cases h0 : d.rootHash = 0
    · rw [if_pos h0] at h; cases h; exact .empty h0
    rw [if_neg h0] at h
    by_cases ha : s.auto = true
    · rw [if_pos ha] at h
      cases pub with
      | none => simp at h
      | some tx => cases h; exact .sent tx h0 rfl
    · rw [if_neg ha] at h
      by_cases hc : s.anchorCounter + 1 < pow32
      · rw [if_pos hc] at h; cases h; exact .anchored h0
      · rw [if_neg hc] at h; simp at h

/-- What accepting an approved root did: nothing (empty root), submission to the external validator, or processing. -/
inductive Accepted (refOf : RootId → Nat → Nat) (s : State) (rid : RootId) (d : RootData) (pub : Option Nat) : State → Prop
  | submitted (h : d.rootHash ≠ 0) : Accepted refOf s rid d pub { s with
      extRef := upd s.extRef (refOf rid d.rootHash) (some rid)
      extStatus := upd s.extStatus rid (some .inProgress) }
  | processed (s1 : State) (h : Processed s rid d pub s1) (he : d.rootHash ≠ 0 → s.external = false) :
      Accepted refOf s rid d pub s1

theorem acceptRoot_ok {refOf : RootId → Nat → Nat} {s s1 : State} {rid : RootId} {d : RootData} {pub : Option Nat}
    {prop : Bool} (hd : getRoot s.roots rid = some d) (h : acceptRoot refOf s rid d pub prop = .ok s1) :
    Accepted refOf s rid d pub s1 := by
  unfold acceptRoot at h
  by_cases h0 : d.rootHash = 0
  · rw [if_pos h0] at h; cases h; exact .processed _ (.empty h0) (fun h => absurd h0 h)
  rw [if_neg h0] at h
  by_cases he : s.external = true
  · rw [if_pos he] at h
    unfold submitExternal at h
    by_cases h1 : s.threshold.isNone = true
    · rw [if_pos h1] at h; simp at h
    rw [if_neg h1] at h
    by_cases h2 : prop = false
    · rw [if_pos h2] at h; simp at h
    rw [if_neg h2] at h
    cases h; exact .submitted h0
  · rw [if_neg he] at h
    obtain ⟨d', hd', hp⟩ := processAccepted_ok h
    rw [hd] at hd'; cases hd'
    exact .processed _ hp (fun _ => by simpa using he)

/-- One elementary transition of call `op`. -/
inductive Micro (refOf : RootId → Nat → Nat) (op : Step) (s : State) : State → Prop
  | frame (s' : State) (evs : List Event) (hf : Frame s s') (hl : s'.log = s.log ++ evs)
      (he : ∀ e ∈ evs, slotEvent e = true)
      (hs : s'.schedulePeriod = s.schedulePeriod ∨ (∃ a b, op = .setPeriods a b) ∨ (∃ a, op = .setSchedule a))
      (hp : s.schedulePeriod ≥ 30 → s'.schedulePeriod ≥ 30) : Micro refOf op s s'
  | recorded (b h k who voteEnd : Nat) (hop : op = .record b h k who)
      (hauth : Avn.isValidator s.validators who = true) (hslot : s.slotValidator = some who)
      (hk : wrapInc64 s.totalIngresses = k) (htgt : targetBlock s = .ok b)
      (hfree : neitherPendingNorApproved s ⟨s.nextBlock, b⟩ = true)
      (hv : s.votes ⟨⟨s.nextBlock, b⟩, k⟩ = none) :
      Micro refOf op s (recordEffects s ⟨⟨s.nextBlock, b⟩, k⟩ h who voteEnd)
  | voted (rid : RootId) (voter : Nat) (approve : Bool) (pub : Option Nat) (prop : Bool) (v v' : Avn.Session)
      (hop : op = .vote rid voter approve pub prop) (hv : s.votes rid = some v)
      (hc : Avn.castVote s.validators (sessionActive s rid) v voter approve = .ok v') :
      Micro refOf op s { s with votes := upd s.votes rid (some v') }
  | approved (rid : RootId) (v : Avn.Session) (d : RootData) (pub : Option Nat) (s1 : State)
      (hval : sessionValid s rid = true) (hv : s.votes rid = some v) (hd : getRoot s.roots rid = some d)
      (happ : v.isApproved = true) (hacc : Accepted refOf s rid d pub s1) :
      Micro refOf op s (markValidated s1 rid d v)
  | rejected (rid : RootId) (v : Avn.Session) (d : RootData) (creator : Nat) 
      (hval : sessionValid s rid = true) (hv : s.votes rid = some v) (hd : getRoot s.roots rid = some d)
      (happ : v.isApproved = false) (hend : v.hasOutcome = true ∨ v.endOfVotingPeriod ≤ s.block)
      (hc : d.addedBy = some creator) : Micro refOf op s { s with
        pending := upd s.pending rid.range none
        log := s.log ++ [.offence .createdInvalidRoot [creator], .offence .approvedInvalidRoot v.ayes,
          .votingEnded rid false] }
  | resolvedAccept (rid : RootId) (ref : Nat) (d : RootData) (pub : Option Nat) (s1 : State)
      (hop : op = .adminResolve rid true pub)
      (hr : s.reviews rid = some ref) (hst : s.extStatus rid = some .pendingAdminReview)
      (hd : getRoot s.roots rid = some d) (hp : Processed s rid d pub s1) :
      Micro refOf op s { cleanup s1 rid ref with log := (cleanup s1 rid ref).log ++ [.resolved rid true] }
  | resolvedReject (rid : RootId) (ref : Nat) (pub : Option Nat) (hop : op = .adminResolve rid false pub)
      (hr : s.reviews rid = some ref) (hst : s.extStatus rid = some .pendingAdminReview) :
      Micro refOf op s { cleanup s rid ref with log := (cleanup s rid ref).log ++ [.resolved rid false] }
  | completed (rid : RootId) (ref : Nat) (d : RootData) (pub : Option Nat) (s1 : State)
      (hop : op = .votingCompleted ref true pub) (hr : s.extRef ref = some rid)
      (hd : getRoot s.roots rid = some d)
      (hp : Processed { s with extStatus := upd s.extStatus rid (some .accepted) } rid d pub s1) :
      Micro refOf op s (cleanup s1 rid ref)
  | stuck (rid : RootId) (ref : Nat) (pub : Option Nat)
      (hop : op = .votingCompleted ref true pub) (hr : s.extRef ref = some rid) :
      Micro refOf op s { s with extStatus := upd s.extStatus rid (some .accepted) }
  | review (rid : RootId) (ref : Nat) (hop : op = .cancelled ref ∨ ∃ pub, op = .votingCompleted ref false pub)
      (hr : s.extRef ref = some rid) : Micro refOf op s (setupReview s rid ref)
  | finalised (rid : RootId) (tx : Nat) (hop : op = .processResult tx true true) (ht : s.txIdToRoot tx = some rid) :
      Micro refOf op s { s with
          roots := mutateRoot s.roots rid (fun d => { d with finalised := true })
          txIdToRoot := upd s.txIdToRoot tx none
          log := s.log ++ [.finalised rid tx] }

/-- A step: nothing, one elementary transition, or two (the second one ends the session, whatever the call). -/
inductive View (refOf : RootId → Nat → Nat) (op : Step) (s : State) : State → Prop
  | same : View refOf op s s
  | one {s' : State} (h : Micro refOf op s s') : View refOf op s s'
  | two {s' : State} (rid : RootId) (x : Nat) (a : Bool) (p : Option Nat) (q : Bool) (v v' : Avn.Session)
      (hop : op = .vote rid x a p q) (hv : s.votes rid = some v)
      (hc : Avn.castVote s.validators (sessionActive s rid) v x a = .ok v')
      (h2 : ∀ op', Micro refOf op' { s with votes := upd s.votes rid (some v') } s') : View refOf op s s'

variable {refOf : RootId → Nat → Nat}

theorem endVoting_micro {s s' : State} {rid : RootId} {pub : Option Nat} {prop : Bool} (op : Step)
    (h : endVoting refOf s rid pub prop = .ok s') : Micro refOf op s s' := by
  unfold endVoting at h
  by_cases hval : sessionValid s rid = false
  · rw [if_pos hval] at h; simp at h
  rw [if_neg hval] at h
  have hval' : sessionValid s rid = true := by simpa using hval
  cases hv : s.votes rid with
  | none => rw [hv] at h; simp at h
  | some v =>
    cases hd : getRoot s.roots rid with
    | none => rw [hv, hd] at h; simp at h
    | some d =>
      rw [hv, hd] at h
      dsimp only at h
      by_cases he : (v.hasOutcome || decide (s.block ≥ v.endOfVotingPeriod)) = false
      · rw [if_pos he] at h; simp at h
      rw [if_neg he] at h
      by_cases ha : v.isApproved = true
      · rw [if_pos ha] at h
        cases hacc : acceptRoot refOf s rid d pub prop with
        | error e => rw [hacc] at h; simp at h
        | ok s1 =>
          rw [hacc] at h
          dsimp only at h
          cases hb : addBlocks rid.range.toBlock 1 with
          | error e => rw [hb] at h; simp at h
          | ok n =>
            rw [hb] at h
            dsimp only at h
            cases h
            exact .approved rid v d pub s1 hval' hv hd ha (acceptRoot_ok hd hacc)
      · rw [if_neg ha] at h
        cases hc : d.addedBy with
        | none => rw [hc] at h; simp at h
        | some creator =>
          rw [hc] at h
          dsimp only at h
          cases h
          refine .rejected rid v d creator hval' hv hd (by simpa using ha) ?_ hc
          simp only [Bool.or_eq_false_iff, not_and, Bool.not_eq_false, decide_eq_false_iff_not] at he
          by_cases ho : v.hasOutcome = true
          · exact .inl ho
          · right; have := he (by simpa using ho); simpa using this

theorem updateSlot_ok {s s' : State} {who : Nat} (h : updateSlot s who = .ok s') :
    canAdvance s who = .ok () ∧ s.currentSlot + 1 < pow32 ∧
    ∃ v, Avn.primaryForBlock s.validators (s.currentSlot + 1) = .ok v ∧ s.nextSlotAt + s.schedulePeriod < pow32 ∧
      s' = { s with
            currentSlot := s.currentSlot + 1
            slotValidator := some v
            nextSlotAt := s.nextSlotAt + s.schedulePeriod
            log := s.log ++ noSummaryOffence s ++
              [.slotAdvanced who (s.currentSlot + 1) v (s.nextSlotAt + s.schedulePeriod)] } := by
  unfold updateSlot at h
  cases hc : canAdvance s who with
  | error e => rw [hc] at h; simp at h
  | ok u =>
    rw [hc] at h
    dsimp only at h
    refine ⟨rfl, ?_⟩
    unfold addBlocks at h
    by_cases h1 : s.currentSlot + 1 < pow32
    · rw [if_pos h1] at h
      dsimp only at h
      cases hp : Avn.primaryForBlock s.validators (s.currentSlot + 1) with
      | error e => rw [hp] at h; simp at h
      | ok v =>
        rw [hp] at h
        dsimp only at h
        by_cases h2 : s.nextSlotAt + s.schedulePeriod < pow32
        · rw [if_pos h2] at h
          cases h
          exact ⟨h1, v, rfl, h2, rfl⟩
        · rw [if_neg h2] at h; simp at h
    · rw [if_neg h1] at h; simp at h

theorem noSummary_slotEvent (s : State) : ∀ e ∈ noSummaryOffence s, slotEvent e = true := by
  intro e he
  unfold noSummaryOffence at he
  split at he
  · split at he
    · simp at he
    · simp at he; subst he; rfl
  · simp at he

theorem frame_refl (s : State) : Frame s s := ⟨rfl, rfl, rfl, rfl, rfl, rfl, rfl, rfl⟩

theorem validSchedule_ok {sp : Nat} (h : validSchedule sp = .ok ()) : 30 ≤ sp := by
  unfold validSchedule minSchedulePeriod at h
  by_cases h1 : sp < 30
  · rw [if_pos h1] at h; simp at h
  · omega

theorem validVoting_ok {vp sp : Nat} (h : validVoting vp sp = .ok ()) : 25 ≤ vp ∧ vp < sp ∧ vp ≤ 28800 := by
  unfold validVoting minVotingPeriod maxVotingPeriod at h
  by_cases h1 : vp < 25
  · rw [if_pos h1] at h; simp at h
  rw [if_neg h1] at h
  by_cases h2 : vp ≥ sp
  · rw [if_pos h2] at h; simp at h
  rw [if_neg h2] at h
  by_cases h3 : vp > 28800
  · rw [if_pos h3] at h; simp at h
  omega

theorem setPeriods_ok {s s' : State} {sp vp : Nat} (h : setPeriods s sp vp = .ok s') :
    30 ≤ sp ∧ 25 ≤ vp ∧ vp < sp ∧ vp ≤ 28800 ∧
    s' = { s with schedulePeriod := sp, votingPeriod := vp, nextSlotAt := s.nextBlock + sp } := by
  unfold setPeriods at h
  cases h1 : validSchedule sp with
  | error e => rw [h1] at h; simp at h
  | ok _ =>
    rw [h1] at h; dsimp only at h
    cases h2 : validVoting vp sp with
    | error e => rw [h2] at h; simp at h
    | ok _ =>
      rw [h2] at h; dsimp only at h
      unfold addBlocks at h
      by_cases h3 : s.nextBlock + sp < pow32
      · rw [if_pos h3] at h; cases h
        have := validSchedule_ok h1; have := validVoting_ok h2
        exact ⟨by omega, by omega, by omega, by omega, rfl⟩
      · rw [if_neg h3] at h; simp at h

theorem setSchedule_ok {s s' : State} {sp : Nat} (h : setSchedule s sp = .ok s') :
    30 ≤ sp ∧ 25 ≤ s.votingPeriod ∧ s.votingPeriod < sp ∧ s.votingPeriod ≤ 28800 ∧
    s' = { s with schedulePeriod := sp, nextSlotAt := s.nextBlock + sp } := by
  unfold setSchedule at h
  cases h1 : validSchedule sp with
  | error e => rw [h1] at h; simp at h
  | ok _ =>
    rw [h1] at h; dsimp only at h
    cases h2 : validVoting s.votingPeriod sp with
    | error e => rw [h2] at h; simp at h
    | ok _ =>
      rw [h2] at h; dsimp only at h
      unfold addBlocks at h
      by_cases h3 : s.nextBlock + sp < pow32
      · rw [if_pos h3] at h; cases h
        have := validSchedule_ok h1; have := validVoting_ok h2
        exact ⟨by omega, by omega, by omega, by omega, rfl⟩
      · rw [if_neg h3] at h; simp at h

theorem setVoting_ok {s s' : State} {vp : Nat} (h : setVoting s vp = .ok s') :
    25 ≤ vp ∧ vp < s.schedulePeriod ∧ vp ≤ 28800 ∧ s' = { s with votingPeriod := vp } := by
  unfold setVoting at h
  cases h2 : validVoting vp s.schedulePeriod with
  | error e => rw [h2] at h; simp at h
  | ok _ =>
    rw [h2] at h; dsimp only at h
    cases h
    have := validVoting_ok h2
    exact ⟨by omega, by omega, by omega, rfl⟩

theorem commit_view {s : State} {r : Except Err State} (op : Step)
    (h : ∀ s', r = .ok s' → View refOf op s s') : View refOf op s (commit s r) := by
  cases r with
  | error e => exact .same
  | ok s' => exact h s' rfl

/-- Every step is explained by at most two elementary transitions. -/
theorem step_view (s : State) (op : Step) : View refOf op s (step refOf s op) := by
  cases op with
  | record b h k who =>
    simp only [step]
    by_cases hg : s.slotValidator = some who ∧ Avn.isValidator s.validators who = true
    · rw [if_pos hg]
      refine commit_view _ (fun s' hs => ?_)
      unfold recordSummary at hs
      by_cases h1 : wrapInc64 s.totalIngresses ≠ k
      · rw [if_pos h1] at hs; simp at hs
      rw [if_neg h1] at hs
      by_cases h2 : Avn.isValidator s.validators who = false
      · rw [if_pos h2] at hs; simp at hs
      rw [if_neg h2] at hs
      dsimp only at hs
      cases h3 : targetBlock s with
      | error e => rw [h3] at hs; simp at hs
      | ok t =>
        rw [h3] at hs
        dsimp only at hs
        by_cases h4 : neitherPendingNorApproved s ⟨s.nextBlock, b⟩ = false
        · rw [if_pos h4] at hs; simp at hs
        rw [if_neg h4] at hs
        by_cases h5 : (s.votes ⟨⟨s.nextBlock, b⟩, k⟩).isSome = true
        · rw [if_pos h5] at hs; simp at hs
        rw [if_neg h5] at hs
        by_cases h6 : b ≠ t
        · rw [if_pos h6] at hs; simp at hs
        rw [if_neg h6] at hs
        cases h7 : addBlocks s.block s.votingPeriod with
        | error e => rw [h7] at hs; simp at hs
        | ok ve =>
          rw [h7] at hs
          dsimp only at hs
          cases hs
          have hbt : b = t := by simpa using h6
          refine .one (.recorded b h k who ve rfl hg.2 hg.1 (by simpa using h1) (by rw [h3, hbt]) (by simpa using h4) ?_)
          simpa using h5
    · rw [if_neg hg]; exact .same
  | vote rid voter approve pub prop =>
    simp only [step]
    refine commit_view _ (fun s' hs => ?_)
    unfold castVote at hs
    cases hv : s.votes rid with
    | none => rw [hv] at hs; simp at hs
    | some v =>
      rw [hv] at hs
      dsimp only at hs
      cases hc : Avn.castVote s.validators (sessionActive s rid) v voter approve with
      | error e => rw [hc] at hs; simp at hs
      | ok v' =>
        rw [hc] at hs
        dsimp only at hs
        have hm : Micro refOf (.vote rid voter approve pub prop) s { s with votes := upd s.votes rid (some v') } :=
          .voted rid voter approve pub prop v v' rfl hv hc
        by_cases he : (v'.hasOutcome && sessionActive { s with votes := upd s.votes rid (some v') } rid) = true
        · rw [if_pos he] at hs
          exact .two rid voter approve pub prop v v' rfl hv hc (fun op' => endVoting_micro op' hs)
        · rw [if_neg he] at hs
          cases hs
          exact .one hm
  | endVoting rid who pub prop =>
    simp only [step]
    by_cases hg : Avn.isValidator s.validators who = true
    · rw [if_pos hg]
      exact commit_view _ (fun s' hs => .one (endVoting_micro _ hs))
    · rw [if_neg hg]; exact .same
  | advanceSlot who =>
    simp only [step]
    by_cases hg : s.slotValidator = some who ∧ Avn.isValidator s.validators who = true
    · rw [if_pos hg]
      refine commit_view _ (fun s' hs => ?_)
      obtain ⟨_, _, v, _, _, rfl⟩ := updateSlot_ok hs
      refine .one (.frame _ (noSummaryOffence s ++ [.slotAdvanced who (s.currentSlot + 1) v
        (s.nextSlotAt + s.schedulePeriod)]) (frame_refl s) (by simp) ?_ (.inl rfl) (fun h => h))
      intro e he
      rcases List.mem_append.1 he with he | he
      · exact noSummary_slotEvent s e he
      · simp at he; subst he; rfl
    · rw [if_neg hg]; exact .same
  | challenge n a b who =>
    simp only [step]
    by_cases hg : Avn.isValidator s.validators who = true
    · rw [if_pos hg]
      refine commit_view _ (fun s' hs => ?_)
      unfold addChallenge at hs
      by_cases h1 : challengeValid s n b = false
      · rw [if_pos h1] at hs; simp at hs
      rw [if_neg h1] at hs
      dsimp only at hs
      cases h2 : updateSlot { s with log := s.log ++ [.offence .slotNotAdvanced [b]] } who with
      | error e => rw [h2] at hs; simp at hs
      | ok s2 =>
        rw [h2] at hs
        dsimp only at hs
        cases hs
        obtain ⟨_, _, v, _, _, rfl⟩ := updateSlot_ok h2
        refine .one (.frame _ ([.offence .slotNotAdvanced [b]] ++ noSummaryOffence s ++ [.slotAdvanced who (s.currentSlot + 1) v
          (s.nextSlotAt + s.schedulePeriod)] ++ [.challengeAdded (n.getD 0) a b]) (frame_refl s) ?_ ?_ (.inl rfl) (fun h => h))
        · simp [noSummaryOffence]
        · intro e he
          rcases List.mem_append.1 he with he | he
          · rcases List.mem_append.1 he with he | he
            · rcases List.mem_append.1 he with he | he
              · simp at he; subst he; rfl
              · exact noSummary_slotEvent s e he
            · simp at he; subst he; rfl
          · simp at he; subst he; rfl
    · rw [if_neg hg]; exact .same
  | setPeriods a b =>
    simp only [step]
    refine commit_view _ (fun s' hs => ?_)
    obtain ⟨h1, _, _, _, rfl⟩ := setPeriods_ok hs
    exact .one (.frame _ [] (frame_refl s) (by simp) (by simp) (.inr (.inl ⟨a, b, rfl⟩)) (fun _ => h1))
  | setSchedule a =>
    simp only [step]
    refine commit_view _ (fun s' hs => ?_)
    obtain ⟨h1, _, _, _, rfl⟩ := setSchedule_ok hs
    exact .one (.frame _ [] (frame_refl s) (by simp) (by simp) (.inr (.inr ⟨a, rfl⟩)) (fun _ => h1))
  | setVoting a =>
    simp only [step]
    refine commit_view _ (fun s' hs => ?_)
    obtain ⟨_, _, _, rfl⟩ := setVoting_ok hs
    exact .one (.frame _ [] (frame_refl s) (by simp) (by simp) (.inl rfl) (fun h => h))
  | setThreshold a =>
    simp only [step]
    refine commit_view _ (fun s' hs => ?_)
    unfold setThreshold at hs
    by_cases h1 : a > 0 ∧ a ≤ 100
    · rw [if_pos h1] at hs
      cases hs
      exact .one (.frame _ [] (frame_refl s) (by simp) (by simp) (.inl rfl) (fun h => h))
    · rw [if_neg h1] at hs; simp at hs
  | adminResolve rid accepted pub =>
    simp only [step]
    refine commit_view _ (fun s' hs => ?_)
    unfold adminResolve at hs
    cases h1 : s.reviews rid with
    | none => rw [h1] at hs; simp at hs
    | some ref =>
      rw [h1] at hs
      dsimp only at hs
      cases h2 : getRoot s.roots rid with
      | none => rw [h2] at hs; simp at hs
      | some d =>
        rw [h2] at hs
        dsimp only at hs
        cases h3 : s.extStatus rid with
        | none => rw [h3] at hs; simp at hs
        | some st =>
          rw [h3] at hs
          dsimp only at hs
          by_cases h4 : st ≠ .pendingAdminReview
          · rw [if_pos h4] at hs; simp at hs
          rw [if_neg h4] at hs
          have hst : s.extStatus rid = some .pendingAdminReview := by rw [h3]; simpa using h4
          cases accepted with
          | false =>
            simp only [Bool.false_eq_true, if_false] at hs
            cases hs
            exact .one (.resolvedReject rid ref pub rfl h1 hst)
          | true =>
            simp only [if_true] at hs
            cases h5 : processAccepted s rid pub with
            | error e => rw [h5] at hs; simp at hs
            | ok s1 =>
              rw [h5] at hs
              dsimp only at hs
              cases hs
              obtain ⟨d', hd', hp⟩ := processAccepted_ok h5
              exact .one (.resolvedAccept rid ref d' pub s1 rfl h1 hst hd' hp)
  | votingCompleted ref ok pub =>
    simp only [step]
    unfold votingCompleted
    cases h1 : s.extRef ref with
    | none => exact .same
    | some rid =>
      dsimp only
      cases ok with
      | false =>
        simp only [Bool.false_eq_true, if_false]
        exact .one (.review rid ref (.inr ⟨pub, rfl⟩) h1)
      | true =>
        simp only [if_true]
        cases h2 : getRoot s.roots rid with
        | none => exact .same
        | some d =>
          dsimp only
          cases h3 : processAccepted { s with extStatus := upd s.extStatus rid (some .accepted) } rid pub with
          | error e => exact .one (.stuck rid ref pub rfl h1)
          | ok s2 =>
            obtain ⟨d', hd', hp⟩ := processAccepted_ok h3
            exact .one (.completed rid ref d' pub s2 rfl h1 hd' hp)
  | cancelled ref =>
    simp only [step]
    unfold cancelled
    cases h1 : s.extRef ref with
    | none => exact .same
    | some rid => exact .one (.review rid ref (.inl rfl) h1)
  | processResult tx mine ok =>
    simp only [step]
    unfold processResult
    cases mine with
    | false => exact .same
    | true =>
      simp only [if_true]
      cases h1 : s.txIdToRoot tx with
      | none => exact .same
      | some rid =>
        dsimp only
        cases ok with
        | false => exact .same
        | true => exact .one (.finalised rid tx rfl h1)
  | environment b vs a e g =>
    exact .one (.frame _ [] (frame_refl s) (by simp [step]) (by simp) (.inl rfl) (fun h => h))

theorem run_snoc (s : State) (steps : List Step) (op : Step) :
    run refOf s (steps ++ [op]) = step refOf (run refOf s steps) op := by
  simp [run, List.foldl_append]

end Verif.Summary
