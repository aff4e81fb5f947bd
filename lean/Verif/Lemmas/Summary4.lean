import Verif.Lemmas.Summary3

namespace Verif.Summary

open Verif

variable {refOf : RootId → Nat → Nat}

/-- The entry is the validation of `rid`. -/
@[simp] def isValidated (rid : RootId) : Event → Bool
  | .validated r _ => r == rid
  | _ => false

/-- Where a log entry of interest can come from. -/
structure NewEvents (refOf : RootId → Nat → Nat) (op : Step) (s : State) (evs : List Event) : Prop where
  prop : ∀ rid h w, .calculated rid h w ∈ evs → op = .record rid.range.toBlock h rid.ingress w ∧
    neitherPendingNorApproved s rid.range = true ∧ rid.range.fromBlock = s.nextBlock ∧ targetBlock s = .ok rid.range.toBlock
  val : ∀ rid h, .validated rid h ∈ evs → sessionValid s rid = true
  valOnce : ∀ rid, evs.countP (isValidated rid) ≤ 1
  fin : ∀ rid t, .finalised rid t ∈ evs → op = .processResult t true true ∧ s.txIdToRoot t = some rid
  pass : ∀ rid h t, .passed rid h t ∈ evs → (sessionValid s rid = true ∧ s.external = false) ∨
    (∃ ref p, op = .votingCompleted ref true p ∧ s.extRef ref = some rid) ∨
    (∃ p, op = .adminResolve rid true p ∧ (∃ ref, s.reviews rid = some ref) ∧ s.extStatus rid = some .pendingAdminReview)
  res : ∀ rid a, .resolved rid a ∈ evs → ∃ p, op = .adminResolve rid a p ∧ (∃ ref, s.reviews rid = some ref) ∧
    s.extStatus rid = some .pendingAdminReview

theorem newEvents_slot (op : Step) (s : State) {evs : List Event} (h : ∀ e ∈ evs, slotEvent e = true) :
    NewEvents refOf op s evs where
  prop := by intro _ _ _ hm; simpa [slotEvent] using h _ hm
  val := by intro _ _ hm; simpa [slotEvent] using h _ hm
  valOnce := by
    intro rid
    refine Nat.le_trans (Nat.le_of_eq (List.countP_eq_zero.2 ?_)) (Nat.zero_le 1)
    intro e he
    have := h e he
    cases e <;> simp [slotEvent] at this ⊢
  fin := by intro _ _ hm; simpa [slotEvent] using h _ hm
  pass := by intro _ _ _ hm; simpa [slotEvent] using h _ hm
  res := by intro _ _ hm; simpa [slotEvent] using h _ hm

theorem processed_log {s s1 : State} {rid : RootId} {d : RootData} {pub : Option Nat} (h : Processed s rid d pub s1) :
    s1.log = s.log ∨ (d.rootHash ≠ 0 ∧ ∃ t, s1.log = s.log ++ [.passed rid d.rootHash t]) := by
  cases h with
  | empty => exact .inl rfl
  | sent tx h => exact .inr ⟨h, _, rfl⟩
  | anchored h => exact .inr ⟨h, _, rfl⟩

theorem micro_log {s s' : State} {op : Step} (h : Micro refOf op s s') :
    ∃ evs, s'.log = s.log ++ evs ∧ NewEvents refOf op s evs := by
  cases h with
  | frame _ evs hf hl he hs hp => exact ⟨evs, hl, newEvents_slot op s he⟩
  | recorded b h k who voteEnd hop hauth hslot hk htgt hfree hv =>
    refine ⟨[.calculated ⟨⟨s.nextBlock, b⟩, k⟩ h who], rfl, ?_⟩
    constructor <;> try (intros; simp_all; done)
  | voted => exact ⟨[], by simp, newEvents_slot op s (by simp)⟩
  | approved rid v d pub s1 hval hv hd happ hacc =>
    have key : ∀ pre, (∀ e ∈ pre, ∃ t, e = Event.passed rid d.rootHash t ∧ s.external = false) →
        NewEvents refOf op s (pre ++ [.offence .rejectedValidRoot v.nays, .validated rid d.rootHash, .votingEnded rid true]) := by
      intro pre hpre
      have hno : ∀ e ∈ pre, ∀ r x, e ≠ .validated r x := by
        intro e he r x h; obtain ⟨t, ht, _⟩ := hpre e he; rw [ht] at h; simp at h
      constructor
      · intro r x w hm
        rcases List.mem_append.1 hm with hm | hm
        · obtain ⟨t, ht, _⟩ := hpre _ hm; simp at ht
        · simp at hm
      · intro r x hm
        rcases List.mem_append.1 hm with hm | hm
        · obtain ⟨t, ht, _⟩ := hpre _ hm; simp at ht
        · simp at hm; rw [hm.1]; exact hval
      · intro r
        rw [List.countP_append, List.countP_eq_zero.2]
        · simp only [List.countP_cons, List.countP_nil, isValidated, Bool.false_eq_true, if_false]
          by_cases hrr : (rid == r) = true <;> simp [hrr]
        · intro e he
          cases e with
          | validated r x => exact absurd rfl (hno _ he r x)
          | _ => simp
      · intro r t hm
        rcases List.mem_append.1 hm with hm | hm
        · obtain ⟨t, ht, _⟩ := hpre _ hm; simp at ht
        · simp at hm
      · intro r x t hm
        rcases List.mem_append.1 hm with hm | hm
        · obtain ⟨t, ht, he⟩ := hpre _ hm
          simp only [Event.passed.injEq] at ht
          rw [ht.1]; exact .inl ⟨hval, he⟩
        · simp at hm
      · intro r t hm
        rcases List.mem_append.1 hm with hm | hm
        · obtain ⟨t, ht, _⟩ := hpre _ hm; simp at ht
        · simp at hm
    cases hacc with
    | submitted hne => exact ⟨_, rfl, key [] (by simp)⟩
    | processed _ hp hx =>
      rcases processed_log hp with h | ⟨hne, t, h⟩
      · exact ⟨_, by simp only [markValidated, h]; rfl, key [] (by simp)⟩
      · refine ⟨_, by simp only [markValidated, h, List.append_assoc], key [.passed rid d.rootHash t] ?_⟩
        intro e he
        exact ⟨t, by simpa using he, hx hne⟩
  | rejected rid v d creator hval hv hd happ hend hc =>
    refine ⟨_, rfl, ?_⟩
    constructor <;> intros <;> simp_all
  | resolvedAccept rid ref d pub s1 hop hr hst hd hp =>
    have hlog : ∃ pre, s1.log = s.log ++ pre ∧ ∀ e ∈ pre, ∃ t, e = Event.passed rid d.rootHash t := by
      rcases processed_log hp with h | ⟨_, t, h⟩
      · exact ⟨[], by simp [h], by simp⟩
      · exact ⟨_, h, by simp⟩
    obtain ⟨pre, hl, hpre⟩ := hlog
    refine ⟨pre ++ [.resolved rid true], by simp [cleanup, hl], ?_⟩
    constructor
    · intro r x w hm
      rcases List.mem_append.1 hm with hm | hm
      · obtain ⟨t, ht⟩ := hpre _ hm; simp at ht
      · simp at hm
    · intro r x hm
      rcases List.mem_append.1 hm with hm | hm
      · obtain ⟨t, ht⟩ := hpre _ hm; simp at ht
      · simp at hm
    · intro r
      refine Nat.le_trans (Nat.le_of_eq (List.countP_eq_zero.2 ?_)) (Nat.zero_le 1)
      intro e hm
      rcases List.mem_append.1 hm with hm | hm
      · obtain ⟨t, rfl⟩ := hpre _ hm; simp
      · simp at hm; subst hm; simp
    · intro r t hm
      rcases List.mem_append.1 hm with hm | hm
      · obtain ⟨t, ht⟩ := hpre _ hm; simp at ht
      · simp at hm
    · intro r x t hm
      rcases List.mem_append.1 hm with hm | hm
      · obtain ⟨t, ht⟩ := hpre _ hm
        simp only [Event.passed.injEq] at ht
        rw [ht.1]
        exact .inr (.inr ⟨pub, hop, ⟨ref, hr⟩, hst⟩)
      · simp at hm
    · intro r a hm
      rcases List.mem_append.1 hm with hm | hm
      · obtain ⟨t, ht⟩ := hpre _ hm; simp at ht
      · simp at hm; obtain ⟨rfl, rfl⟩ := hm
        exact ⟨pub, hop, ⟨ref, hr⟩, hst⟩
  | resolvedReject rid ref pub hop hr hst =>
    refine ⟨[.resolved rid false], rfl, ?_⟩
    constructor <;> try (intros; simp_all; done)
  | completed rid ref d pub s1 hop hr hd hp =>
    have hlog : ∃ pre, s1.log = s.log ++ pre ∧ ∀ e ∈ pre, ∃ t, e = Event.passed rid d.rootHash t := by
      rcases processed_log hp with h | ⟨_, t, h⟩
      · exact ⟨[], by simp [h], by simp⟩
      · exact ⟨_, h, by simp⟩
    obtain ⟨pre, hl, hpre⟩ := hlog
    refine ⟨pre, by simp [cleanup, hl], ?_⟩
    constructor
    · intro r x w hm; obtain ⟨t, ht⟩ := hpre _ hm; simp at ht
    · intro r x hm; obtain ⟨t, ht⟩ := hpre _ hm; simp at ht
    · intro r
      refine Nat.le_trans (Nat.le_of_eq (List.countP_eq_zero.2 ?_)) (Nat.zero_le 1)
      intro e hm
      obtain ⟨t, rfl⟩ := hpre _ hm; simp
    · intro r t hm; obtain ⟨t, ht⟩ := hpre _ hm; simp at ht
    · intro r x t hm
      obtain ⟨t, ht⟩ := hpre _ hm
      simp only [Event.passed.injEq] at ht
      rw [ht.1]
      exact .inr (.inl ⟨ref, pub, hop, hr⟩)
    · intro r a hm; obtain ⟨t, ht⟩ := hpre _ hm; simp at ht
  | stuck => exact ⟨[], by simp, newEvents_slot op s (by simp)⟩
  | review rid ref hop hr =>
    refine ⟨[.reviewRequested rid ref], rfl, ?_⟩
    constructor <;> intros <;> simp_all
  | finalised rid tx hop ht =>
    refine ⟨[.finalised rid tx], rfl, ?_⟩
    constructor <;> try (intros; simp_all; done)

theorem sessionValid_votes (s : State) (rid r : RootId) (v v' : Avn.Session) (hv : s.votes rid = some v) :
    sessionValid { s with votes := upd s.votes rid (some v') } r = sessionValid s r := by
  unfold sessionValid
  dsimp only
  rw [upd_apply]
  by_cases h : r = rid
  · rw [if_pos h, h, hv]
    cases getRoot s.roots rid <;> cases s.pending rid.range <;> rfl
  · rw [if_neg h]

theorem view_log {s s' : State} {op : Step} (h : View refOf op s s') :
    ∃ evs, s'.log = s.log ++ evs ∧ NewEvents refOf op s evs := by
  cases h with
  | same => exact ⟨[], by simp, newEvents_slot op s (by simp)⟩
  | one h => exact micro_log h
  | two rid x a p q v v' hop hv hc h2 =>
    obtain ⟨evs, h1, hn⟩ := micro_log (h2 (.cancelled 0))
    refine ⟨evs, h1, ?_⟩
    constructor
    · intro r h w hm; have := hn.prop r h w hm; simp at this
    · intro r h hm; have := hn.val r h hm; rwa [sessionValid_votes s rid r v v' hv] at this
    · exact hn.valOnce
    · intro r t hm; have := hn.fin r t hm; simp at this
    · intro r h t hm
      have := hn.pass r h t hm
      rw [sessionValid_votes s rid r v v' hv] at this
      simp only [reduceCtorEq, false_and, exists_false, or_false] at this
      exact .inl this
    · intro r t hm; have := hn.res r t hm; simp at this

theorem run_append (s : State) (a b : List Step) : run refOf s (a ++ b) = run refOf (run refOf s a) b := by
  simp [run, List.foldl_append]

/-- The log only grows. -/
theorem run_log (s : State) (steps : List Step) : ∃ evs, (run refOf s steps).log = s.log ++ evs := by
  induction steps using List.reverseRecOn with
  | nil => exact ⟨[], by simp [run]⟩
  | append_singleton steps op ih =>
    rw [run_snoc]
    obtain ⟨e1, h1⟩ := ih
    obtain ⟨e2, h2, _⟩ := view_log (step_view (refOf := refOf) (run refOf s steps) op)
    exact ⟨e1 ++ e2, by rw [h2, h1, List.append_assoc]⟩

/-- An entry that is in the final log but not in the first one was added by some step. -/
theorem run_log_origin (s : State) (steps : List Step) (e : Event) (h : e ∈ (run refOf s steps).log) (hn : e ∉ s.log) :
    ∃ pre op post, steps = pre ++ op :: post ∧ ∃ evs, (run refOf s (pre ++ [op])).log = (run refOf s pre).log ++ evs ∧
      e ∈ evs ∧ NewEvents refOf op (run refOf s pre) evs := by
  induction steps using List.reverseRecOn with
  | nil => exact absurd h hn
  | append_singleton steps op ih =>
    rw [run_snoc] at h
    obtain ⟨e2, h2, h3⟩ := view_log (step_view (refOf := refOf) (run refOf s steps) op)
    rw [h2] at h
    rcases List.mem_append.1 h with h | h
    · obtain ⟨pre, o, post, h4, h5⟩ := ih h
      exact ⟨pre, o, post ++ [op], by rw [h4]; simp, h5⟩
    · exact ⟨steps, op, [], rfl, e2, by rw [run_snoc]; exact h2, h, h3⟩

/-- Slot number and periods. -/
def Same (s s' : State) : Prop :=
  s'.currentSlot = s.currentSlot ∧ s'.schedulePeriod = s.schedulePeriod ∧ s'.votingPeriod = s.votingPeriod

theorem processAccepted_same {s s1 : State} {rid : RootId} {p : Option Nat} (h : processAccepted s rid p = .ok s1) : Same s s1 := by
  obtain ⟨d, _, hp⟩ := processAccepted_ok h
  cases hp <;> exact ⟨rfl, rfl, rfl⟩

theorem endVoting_same {s s1 : State} {rid : RootId} {p : Option Nat} {q : Bool} (h : endVoting refOf s rid p q = .ok s1) :
    Same s s1 := by
  unfold endVoting at h
  by_cases h1 : sessionValid s rid = false
  · rw [if_pos h1] at h; simp at h
  rw [if_neg h1] at h
  cases hv : s.votes rid with
  | none => rw [hv] at h; simp at h
  | some v =>
    cases hd : getRoot s.roots rid with
    | none => rw [hv, hd] at h; simp at h
    | some d =>
      rw [hv, hd] at h
      dsimp only at h
      by_cases h2 : (v.hasOutcome || decide (s.block ≥ v.endOfVotingPeriod)) = false
      · rw [if_pos h2] at h; simp at h
      rw [if_neg h2] at h
      by_cases h3 : v.isApproved = true
      · rw [if_pos h3] at h
        cases ha : acceptRoot refOf s rid d p q with
        | error e => rw [ha] at h; simp at h
        | ok s2 =>
          rw [ha] at h
          dsimp only at h
          cases hb : addBlocks rid.range.toBlock 1 with
          | error e => rw [hb] at h; simp at h
          | ok n =>
            rw [hb] at h
            cases h
            cases acceptRoot_ok hd ha with
            | submitted => exact ⟨rfl, rfl, rfl⟩
            | processed _ hp => cases hp <;> exact ⟨rfl, rfl, rfl⟩
      · rw [if_neg h3] at h
        cases hc : d.addedBy with
        | none => rw [hc] at h; simp at h
        | some c => rw [hc] at h; cases h; exact ⟨rfl, rfl, rfl⟩

/-- Calls that concern neither slots nor configuration. -/
def isRootCall : Step → Bool
  | .advanceSlot .. => false
  | .challenge .. => false
  | .setPeriods .. => false
  | .setSchedule .. => false
  | .setVoting .. => false
  | _ => true

theorem step_same (s : State) (op : Step) (h : isRootCall op = true) : Same s (step refOf s op) := by
  have hcommit : ∀ r : Except Err State, (∀ s', r = .ok s' → Same s s') → Same s (commit s r) := by
    intro r h; cases r with
    | error e => exact ⟨rfl, rfl, rfl⟩
    | ok s' => exact h s' rfl
  cases op with
  | record b h k who =>
    simp only [step]
    by_cases hg : s.slotValidator = some who ∧ Avn.isValidator s.validators who = true
    · rw [if_pos hg]
      refine hcommit _ (fun s' hs => ?_)
      unfold recordSummary at hs
      split at hs
      · simp at hs
      · split at hs
        · simp at hs
        · dsimp only at hs
          split at hs
          · simp at hs
          · split at hs
            · simp at hs
            · split at hs
              · simp at hs
              · split at hs
                · simp at hs
                · split at hs
                  · simp at hs
                  · cases hs; exact ⟨rfl, rfl, rfl⟩
    · rw [if_neg hg]; exact ⟨rfl, rfl, rfl⟩
  | vote rid v a p q =>
    simp only [step]
    refine hcommit _ (fun s' hs => ?_)
    unfold castVote at hs
    split at hs
    · simp at hs
    · split at hs
      · simp at hs
      · dsimp only at hs
        split at hs
        · have := endVoting_same hs; exact this
        · cases hs; exact ⟨rfl, rfl, rfl⟩
  | endVoting rid who p q =>
    simp only [step]
    split
    · exact hcommit _ (fun s' hs => endVoting_same hs)
    · exact ⟨rfl, rfl, rfl⟩
  | setThreshold a =>
    refine hcommit _ (fun s' hs => ?_)
    unfold setThreshold at hs
    split at hs
    · cases hs; exact ⟨rfl, rfl, rfl⟩
    · simp at hs
  | adminResolve rid ac p =>
    refine hcommit _ (fun s' hs => ?_)
    unfold adminResolve at hs
    split at hs
    · simp at hs
    · split at hs
      · simp at hs
      · split at hs
        · simp at hs
        · split at hs
          · simp at hs
          · cases ac with
            | false => simp only [Bool.false_eq_true, if_false] at hs; cases hs; exact ⟨rfl, rfl, rfl⟩
            | true =>
              simp only [if_true] at hs
              cases hp : processAccepted s rid p with
              | error e => rw [hp] at hs; simp at hs
              | ok s1 =>
                rw [hp] at hs; cases hs
                have := processAccepted_same hp; exact this
  | votingCompleted r ok p =>
    simp only [step, votingCompleted]
    cases s.extRef r with
    | none => exact ⟨rfl, rfl, rfl⟩
    | some rid =>
      dsimp only
      cases ok with
      | false => exact ⟨rfl, rfl, rfl⟩
      | true =>
        simp only [if_true]
        cases getRoot s.roots rid with
        | none => exact ⟨rfl, rfl, rfl⟩
        | some d =>
          dsimp only
          cases hp : processAccepted { s with extStatus := upd s.extStatus rid (some .accepted) } rid p with
          | error e => exact ⟨rfl, rfl, rfl⟩
          | ok s2 => have := processAccepted_same hp; exact this
  | cancelled r =>
    simp only [step, cancelled]
    cases s.extRef r <;> exact ⟨rfl, rfl, rfl⟩
  | processResult tx m ok =>
    simp only [step, processResult]
    cases m <;> cases s.txIdToRoot tx <;> cases ok <;> exact ⟨rfl, rfl, rfl⟩
  | environment b vs a e g => exact ⟨rfl, rfl, rfl⟩
  | _ => simp [isRootCall] at h

/-! ### Decisions -/

/-- The entry decides the fate of root `rid`: accepted, or rejected by the administrator. -/
def isDecision (rid : RootId) : Event → Bool
  | .passed r _ _ => r == rid
  | .resolved r false => r == rid
  | _ => false

/-- Number of decisions on a root. -/
def decisions (log : List Event) (rid : RootId) : Nat := log.countP (isDecision rid)

/-- Undecided roots only are referenced. -/
structure Dec (s : State) : Prop where
  once : ∀ rid, decisions s.log rid ≤ 1
  done : ∀ rid, 0 < decisions s.log rid → (∀ r, s.extRef r ≠ some rid) ∧ s.reviews rid = none ∧
    ∃ d, getRoot s.roots rid = some d ∧ d.validated = true

theorem decisions_append (a b : List Event) (rid : RootId) : decisions (a ++ b) rid = decisions a rid + decisions b rid := by
  simp [decisions]

theorem decisions_none {evs : List Event} (h : ∀ e ∈ evs, ∀ r, isDecision r e = false) (rid : RootId) : decisions evs rid = 0 := by
  rw [decisions, List.countP_eq_zero]
  intro e he; simp [h e he rid]

theorem Dec.same {s s' : State} (hd : Dec s) {evs : List Event} (hl : s'.log = s.log ++ evs)
    (he : ∀ e ∈ evs, ∀ r, isDecision r e = false)
    (href : ∀ r rid, s'.extRef r = some rid → s.extRef r = some rid ∨ decisions s.log rid = 0)
    (hrev : ∀ rid r, s'.reviews rid = some r → s.reviews rid = some r ∨ s.extRef r = some rid)
    (hroot : ∀ rid d, getRoot s.roots rid = some d → d.validated = true → ∃ d', getRoot s'.roots rid = some d' ∧ d'.validated = true) :
    Dec s' where
  once := by intro rid; rw [hl, decisions_append, decisions_none he]; exact hd.once rid
  done := by
    intro rid h
    rw [hl, decisions_append, decisions_none he] at h
    obtain ⟨h1, h2, d, h3, h4⟩ := hd.done rid h
    refine ⟨?_, ?_, hroot rid d h3 h4⟩
    · intro r hr
      rcases href r rid hr with h' | h'
      · exact h1 r h'
      · omega
    · cases hr : s'.reviews rid with
      | none => rfl
      | some r =>
        rcases hrev rid r hr with h' | h'
        · rw [h2] at h'; simp at h'
        · exact absurd h' (h1 r)

/-- A decision on an undecided root that clears its references. -/
theorem Dec.decide {s s' : State} (hd : Dec s) {evs : List Event} (rid : RootId) (h0 : decisions s.log rid = 0)
    (hl : s'.log = s.log ++ evs) (he : ∀ x, decisions evs x ≤ if x = rid then 1 else 0)
    (href : ∀ r x, s'.extRef r = some x → s.extRef r = some x ∧ x ≠ rid)
    (hrev : ∀ x r, s'.reviews x = some r → s.reviews x = some r ∧ x ≠ rid)
    (hroot : ∀ x d, getRoot s.roots x = some d → d.validated = true → ∃ d', getRoot s'.roots x = some d' ∧ d'.validated = true)
    (hrid : ∃ d', getRoot s'.roots rid = some d' ∧ d'.validated = true) : Dec s' where
  once := by
    intro x; rw [hl, decisions_append]
    have h1 := he x; have h2 := hd.once x
    by_cases hx : x = rid
    · rw [if_pos hx] at h1; rw [← hx] at h0; omega
    · rw [if_neg hx] at h1; omega
  done := by
    intro x h
    by_cases hx : x = rid
    · subst hx
      refine ⟨fun r hr => (href r x hr).2 rfl, ?_, hrid⟩
      cases hr : s'.reviews x with
      | none => rfl
      | some r => exact absurd rfl (hrev x r hr).2
    · rw [hl, decisions_append] at h
      have := he x
      rw [if_neg hx] at this
      obtain ⟨h1, h2, d, h3, h4⟩ := hd.done x (by omega)
      refine ⟨fun r hr => h1 r (href r x hr).1, ?_, hroot x d h3 h4⟩
      cases hr : s'.reviews x with
      | none => rfl
      | some r => have := (hrev x r hr).1; rw [h2] at this; simp at this

theorem processed_facts {s s1 : State} {rid : RootId} {d : RootData} {pub : Option Nat} (hp : Processed s rid d pub s1)
    (hd : getRoot s.roots rid = some d) :
    (∃ evs, s1.log = s.log ++ evs ∧ ∀ x, decisions evs x ≤ if x = rid then 1 else 0) ∧
    s1.extRef = s.extRef ∧ s1.reviews = s.reviews ∧
    (∀ x d, getRoot s.roots x = some d → ∃ d', getRoot s1.roots x = some d' ∧ d'.validated = d.validated) := by
  have hone : ∀ t, ∀ x, decisions [Event.passed rid d.rootHash t] x ≤ if x = rid then 1 else 0 := by
    intro t x
    by_cases hx : x = rid
    · rw [if_pos hx]; exact List.countP_le_length
    · rw [if_neg hx]; simp [decisions, isDecision]; exact fun e => hx e.symm
  cases hp with
  | empty => exact ⟨⟨[], by simp, by simp [decisions]⟩, rfl, rfl, fun x d h => ⟨d, h, rfl⟩⟩
  | sent tx h =>
    refine ⟨⟨_, rfl, hone _⟩, rfl, rfl, ?_⟩
    intro x dx hx
    by_cases e : x = rid
    · subst e
      rw [hd] at hx; cases hx
      exact ⟨{ d with txId := some tx }, by simp [getRoot_mutate, hd], rfl⟩
    · exact ⟨dx, by simp [getRoot_mutate, e, hx], rfl⟩
  | anchored h => exact ⟨⟨_, rfl, hone _⟩, rfl, rfl, fun x d h => ⟨d, h, rfl⟩⟩

theorem getRoot_markValidated {s1 : State} {rid : RootId} {d d1 : RootData} {v : Avn.Session}
    (h1 : getRoot s1.roots rid = some d1) (x : RootId) : getRoot (markValidated s1 rid d v).roots x =
      if x = rid then some { d1 with validated := true } else getRoot s1.roots x := by
  simp [markValidated, getRoot_mutate, h1]

theorem Dec.micro {s s' : State} {op : Step} (hi : Inv refOf s) (hd : Dec s) (h : Micro refOf op s s') : Dec s' := by
  cases h with
  | frame _ evs hf hl he hs hp =>
    obtain ⟨f1, f2, f3, f4, f5, f6, f7, f8⟩ := hf
    refine hd.same hl ?_ ?_ ?_ ?_
    · intro e hm r
      have := he e hm
      cases e <;> simp [slotEvent] at this <;> rfl
    · intro r rid; rw [f6]; exact .inl
    · intro r rid; rw [f7]; exact .inl
    · intro rid d; rw [f3]; exact fun a b => ⟨d, a, b⟩
  | recorded b h k who voteEnd hop hauth hslot hk htgt hfree hv =>
    refine hd.same (evs := [.calculated ⟨⟨s.nextBlock, b⟩, k⟩ h who]) rfl (by simp [isDecision]) (fun _ _ => .inl) (fun _ _ => .inl) ?_
    intro rid d h1 h2
    refine ⟨d, ?_, h2⟩
    simp only [recordEffects, getRoot_put]
    rw [if_neg]; exact h1
    rintro rfl
    have := hi.rv _ d h1
    rw [hv] at this; simp at this
  | voted => exact hd.same (evs := []) (by simp) (by simp) (fun _ _ => .inl) (fun _ _ => .inl) (fun _ d a b => ⟨d, a, b⟩)
  | approved rid v d pub s1 hval hv hdd happ hacc =>
    obtain ⟨d', v', h1, h2, h3, h4⟩ := (sessionValid_iff s rid).1 hval
    rw [hdd] at h1; cases h1
    have h0 : decisions s.log rid = 0 := by
      refine Nat.eq_zero_of_not_pos (fun h => ?_)
      obtain ⟨_, _, d', g1, g2⟩ := hd.done rid h
      rw [hdd] at g1; cases g1; rw [h4] at g2; simp at g2
    have hnoref : ∀ r, s.extRef r ≠ some rid := by
      intro r hr
      obtain ⟨d', g1, _, g2, _⟩ := hi.ref r rid hr
      rw [hdd] at g1; cases g1; rw [h4] at g2; simp at g2
    have hnorev : ∀ r, s.reviews rid ≠ some r := by
      intro r hr
      obtain ⟨d', g1, _, g2, _⟩ := hi.rev r rid hr
      rw [hdd] at g1; cases g1; rw [h4] at g2; simp at g2
    have hq : ∀ x, decisions [Event.offence .rejectedValidRoot v.nays, .validated rid d.rootHash, .votingEnded rid true] x = 0 := by
      intro x; rfl
    cases hacc with
    | submitted hne =>
      have hg := getRoot_markValidated (s1 := s) (d := d) (v := v) hdd
      refine hd.same (evs := [.offence .rejectedValidRoot v.nays, .validated rid d.rootHash, .votingEnded rid true])
        rfl (by simp [isDecision]) ?_ (fun _ _ => .inl) ?_
      · intro r x hr
        simp only [markValidated, upd_apply] at hr
        split at hr
        · cases hr; exact .inr h0
        · exact .inl hr
      · intro x dx hx hv'
        by_cases e : x = rid
        · exact ⟨_, (hg x).trans (if_pos e), rfl⟩
        · exact ⟨dx, ((hg x).trans (if_neg e)).trans hx, hv'⟩
    | processed _ hp hx =>
      obtain ⟨⟨evs, p1, p2⟩, p3, p4, p5⟩ := processed_facts hp hdd
      obtain ⟨d1, g1, _⟩ := p5 rid d hdd
      have hg := getRoot_markValidated (d := d) (v := v) g1
      refine hd.decide (evs := evs ++ [.offence .rejectedValidRoot v.nays, .validated rid d.rootHash, .votingEnded rid true])
        rid h0 (by simp only [markValidated, p1, List.append_assoc]) ?_ ?_ ?_ ?_ ?_
      · intro x; rw [decisions_append, hq]; exact p2 x
      · intro r x hr
        simp only [markValidated, p3] at hr
        exact ⟨hr, fun e => hnoref r (by rw [← e]; exact hr)⟩
      · intro x r hr
        simp only [markValidated, p4] at hr
        exact ⟨hr, fun e => hnorev r (by rw [← e]; exact hr)⟩
      · intro x dx hx hv'
        by_cases e : x = rid
        · exact ⟨_, (hg x).trans (if_pos e), rfl⟩
        · obtain ⟨dx', k1, k2⟩ := p5 x dx hx
          exact ⟨dx', ((hg x).trans (if_neg e)).trans k1, by rw [k2, hv']⟩
      · exact ⟨_, (hg rid).trans (if_pos rfl), rfl⟩
  | rejected rid v d creator hval hv hdd happ hend hc =>
    exact hd.same (evs := [.offence .createdInvalidRoot [creator], .offence .approvedInvalidRoot v.ayes,
          .votingEnded rid false]) rfl (by simp [isDecision]) (fun _ _ => .inl) (fun _ _ => .inl) (fun _ d a b => ⟨d, a, b⟩)
  | resolvedAccept rid ref d pub s1 hop hr hst hdd hp =>
    obtain ⟨d', g1, g2, g3, g4⟩ := hi.rev ref rid hr
    rw [hdd] at g1; cases g1
    have h0 : decisions s.log rid = 0 := by
      refine Nat.eq_zero_of_not_pos (fun h => ?_)
      have := (hd.done rid h).2.1
      rw [hr] at this; simp at this
    obtain ⟨⟨evs, p1, p2⟩, p3, p4, p5⟩ := processed_facts hp hdd
    refine hd.decide (evs := evs ++ [.resolved rid true]) rid h0 (by simp [cleanup, p1]) ?_ ?_ ?_ ?_ ?_
    · intro x; rw [decisions_append]; exact p2 x
    · intro r x h
      simp only [cleanup, upd_apply, p3] at h
      split at h
      · simp at h
      · rename_i e
        refine ⟨h, ?_⟩
        rintro rfl
        obtain ⟨d', k1, k2, _⟩ := hi.ref r x h
        rw [hdd] at k1; cases k1
        exact e (by rw [k2, g2])
    · intro x r h
      simp only [cleanup, upd_apply, p4] at h
      split at h
      · simp at h
      · rename_i e; exact ⟨h, e⟩
    · intro x dx hx hv'
      obtain ⟨dx', k1, k2⟩ := p5 x dx hx
      exact ⟨dx', k1, by rw [k2, hv']⟩
    · obtain ⟨dx', k1, k2⟩ := p5 rid d hdd
      exact ⟨dx', k1, by rw [k2, g3]⟩
  | resolvedReject rid ref pub hop hr hst =>
    obtain ⟨d, g1, g2, g3, g4⟩ := hi.rev ref rid hr
    have h0 : decisions s.log rid = 0 := by
      refine Nat.eq_zero_of_not_pos (fun h => ?_)
      have := (hd.done rid h).2.1
      rw [hr] at this; simp at this
    refine hd.decide (evs := [.resolved rid false]) rid h0 rfl ?_ ?_ ?_ (fun _ d a b => ⟨d, a, b⟩) ⟨d, g1, g3⟩
    · intro x
      by_cases hx : x = rid
      · rw [if_pos hx]; exact List.countP_le_length
      · rw [if_neg hx]; simp [decisions, isDecision]; exact fun e => hx e.symm
    · intro r x h
      simp only [cleanup, upd_apply] at h
      split at h
      · simp at h
      · rename_i e
        refine ⟨h, ?_⟩
        rintro rfl
        obtain ⟨d', k1, k2, _⟩ := hi.ref r x h
        rw [g1] at k1; cases k1
        exact e (by rw [k2, g2])
    · intro x r h
      simp only [cleanup, upd_apply] at h
      split at h
      · simp at h
      · rename_i e; exact ⟨h, e⟩
  | completed rid ref d pub s1 hop hr hdd hp =>
    obtain ⟨d', g1, g2, g3, g4⟩ := hi.ref ref rid hr
    rw [hdd] at g1; cases g1
    have h0 : decisions s.log rid = 0 := by
      refine Nat.eq_zero_of_not_pos (fun h => ?_)
      exact (hd.done rid h).1 ref hr
    obtain ⟨⟨evs, p1, p2⟩, p3, p4, p5⟩ := processed_facts hp hdd
    refine hd.decide (evs := evs) rid h0 p1 p2 ?_ ?_ ?_ ?_
    · intro r x h
      simp only [cleanup, upd_apply, p3] at h
      split at h
      · simp at h
      · rename_i e
        refine ⟨h, ?_⟩
        rintro rfl
        obtain ⟨d', k1, k2, _⟩ := hi.ref r x h
        rw [hdd] at k1; cases k1
        exact e (by rw [k2, g2])
    · intro x r h
      simp only [cleanup, upd_apply, p4] at h
      split at h
      · simp at h
      · rename_i e; exact ⟨h, e⟩
    · intro x dx hx hv'
      obtain ⟨dx', k1, k2⟩ := p5 x dx hx
      exact ⟨dx', k1, by rw [k2, hv']⟩
    · obtain ⟨dx', k1, k2⟩ := p5 rid d hdd
      exact ⟨dx', k1, by rw [k2, g3]⟩
  | stuck => exact hd.same (evs := []) (by simp) (by simp) (fun _ _ => .inl) (fun _ _ => .inl) (fun _ d a b => ⟨d, a, b⟩)
  | review rid ref hop hr =>
    refine hd.same (evs := [.reviewRequested rid ref]) rfl (by simp [isDecision]) (fun _ _ => .inl) ?_ (fun _ d a b => ⟨d, a, b⟩)
    intro x r h
    simp only [setupReview, upd_apply] at h
    split at h
    · rename_i e; cases h; right; rw [e]; exact hr
    · exact .inl h
  | finalised rid tx hop ht =>
    obtain ⟨d, hdd, k2, k3⟩ := hi.tx tx rid ht
    refine hd.same (evs := [.finalised rid tx]) rfl (by simp [isDecision]) (fun _ _ => .inl) (fun _ _ => .inl) ?_
    intro x dx hx hv
    by_cases e : x = rid
    · subst e
      rw [hdd] at hx; cases hx
      exact ⟨{ d with finalised := true }, by simp [getRoot_mutate, hdd], hv⟩
    · exact ⟨dx, by simp [getRoot_mutate, e, hx], hv⟩

theorem dec_run (sp vp first : Nat) (vs : List Avn.Validator) (a e : Bool) (g : Nat) (steps : List Step) :
    Dec (run refOf (genesis sp vp first vs a e g) steps) := by
  induction steps using List.reverseRecOn with
  | nil => exact { once := by simp [run, genesis, decisions], done := by simp [run, genesis, decisions] }
  | append_singleton steps op ih =>
    rw [run_snoc]
    have hi := inv_run (inv_genesis (refOf := refOf) sp vp first vs a e g) steps
    have hv := step_view (refOf := refOf) (run refOf (genesis sp vp first vs a e g) steps) op
    generalize step refOf (run refOf (genesis sp vp first vs a e g) steps) op = s' at hv
    cases hv with
    | same => exact ih
    | one h => exact ih.micro hi h
    | two rid x a p q v v' hop hv hc h2 =>
      have hm := Micro.voted (refOf := refOf) rid x a p q v v' hop hv hc
      exact (ih.micro hi hm).micro (hi.micro hm) (h2 op)

end Verif.Summary
