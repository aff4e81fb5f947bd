import Verif.Model.Pool
import Verif.Props.EthereumEvents

/-!
# C116, C117: replays of validators' reports to `ethereum-events`

Ingress counters are `u64` and wrap: the statements are for histories of fewer than `2 ^ 64` actions (genesis lifts included).
-/

namespace Verif.EthEvents

open Verif Verif.Events

variable {W : Type} {handler : EthEvent → W → W × Bool}

/-- No event waits to be checked under this counter, and the counter was handed out. -/
def Checked (s : State W) (k : Nat) : Prop := (∀ u ∈ s.unchecked, u.counter ≠ k) ∧ k ≤ s.ingress

/-- Nothing is queued under this counter, and the counter was handed out. -/
def Done (s : State W) (k : Nat) : Prop := Checked s k ∧ ∀ p ∈ s.pending, p.counter ≠ k

theorem checked_view {x : Step W} {s s' : State W} {k : Nat} (hb : s.ingress + 1 < pow64) (h : Checked s k) (v : View handler s x s') :
    Checked s' k := by
  cases v with
  | frame s' hu hp hpr hc hq hi hf hl => unfold Checked; rw [hu, hi]; exact h
  | period p hp => exact h
  | bridge tx acc hne => exact h
  | added ty tx a nonces hf hpr hx hlen h0 =>
    have hw : wrapInc64 s.ingress = s.ingress + 1 := by unfold wrapInc64; exact Nat.mod_eq_of_lt hb
    unfold Checked emit
    dsimp only
    rw [hw]
    have := h.2
    refine ⟨fun u hu => ?_, by omega⟩
    rcases List.mem_append.1 hu with hu | hu
    · exact h.1 u hu
    · rw [List.mem_singleton.1 hu]; dsimp only; omega
  | submitted c counter hv hex hb hs => exact ⟨fun u hu => h.1 u (List.mem_of_mem_eraseP hu), h.2⟩
  | delivered id named p hp hb hr hc hn hv => exact h
  | refused id named p hp hb hr hv => exact h
  | challenged id by_ counter p hv hp hself hdup => exact h

theorem done_view {x : Step W} {s s' : State W} {k : Nat} (hb : s.ingress + 1 < pow64) (h : Done s k) (v : View handler s x s') :
    Done s' k := by
  refine ⟨checked_view hb h.1 v, ?_⟩
  cases v with
  | frame s' hu hp hpr hc hq hi hf hl => rw [hp]; exact h.2
  | period p hp => exact h.2
  | bridge tx acc hne => exact h.2
  | added ty tx a nonces hf hpr hx hlen h0 => exact h.2
  | submitted c counter hv hex hb hs =>
    intro p hp
    rcases pushBounded_mem hp with hp | rfl
    · exact h.2 p hp
    · dsimp only
      obtain ⟨u, hu, hqu⟩ := List.any_eq_true.1 hex
      simp only [Bool.and_eq_true, beq_iff_eq] at hqu
      rw [← hqu.2]
      exact h.1.1 u hu
  | delivered id named p hp hb hr hc hn hv => exact fun q hq => h.2 q ((removeLast_sublist ..).subset hq)
  | refused id named p hp hb hr hv => exact fun q hq => h.2 q ((removeLast_sublist ..).subset hq)
  | challenged id by_ counter p hv hp hself hdup => exact h.2

/-- An invariant that every step keeps as long as the counter does not wrap. -/
theorem keep_run {P : State W → Prop} (hP : ∀ (x : Step W) (s s' : State W), s.ingress + 1 < pow64 → P s → View handler s x s' → P s')
    {s : State W} (h0 : P s) (steps : List (Step W)) (hb : s.ingress + steps.length < 2 ^ 64) :
    P (run handler s steps) ∧ (run handler s steps).ingress ≤ s.ingress + steps.length := by
  induction steps using List.reverseRecOn with
  | nil => exact ⟨h0, by simp [run]⟩
  | append_singleton l x ih =>
    simp only [List.length_append, List.length_singleton] at hb ⊢
    obtain ⟨i1, i2⟩ := ih (by omega)
    rw [run_snoc]
    have hlt : (run handler s l).ingress + 1 < pow64 := by unfold pow64; omega
    have v := step_view (handler := handler) (run handler s l) x
    refine ⟨hP _ _ _ hlt i1 v, ?_⟩
    generalize step handler (run handler s l) x = s' at v
    cases v with
    | frame s' hu hp hpr hc hq hi hf hl => rw [hi]; omega
    | added ty tx a nonces hf hpr hx hlen h0 =>
      have hw : wrapInc64 (run handler s l).ingress = (run handler s l).ingress + 1 := by unfold wrapInc64; exact Nat.mod_eq_of_lt hlt
      simp only [emit]
      rw [hw]; omega
    | period p hp => simp only [emit]; omega
    | bridge tx acc hne => dsimp only; omega
    | submitted c counter hv hex hb hs => simp only [emit]; omega
    | delivered id named p hp hb hr hc hn hv => simp only [deliver, settle, emit]; omega
    | refused id named p hp hb hr hv => simp only [settle, emit]; omega
    | challenged id by_ counter p hv hp hself hdup => simp only [emit]; omega

theorem submit_checked {s s1 : State W} {c : Check} {k : Nat} (hc : Counters s) (h : submitCheck s c k = .ok s1) :
    Checked s1 k ∧ s1.ingress = s.ingress := by
  unfold submitCheck at h
  by_cases h1 : Avn.isValidator s.validators c.checkedBy = false
  · rw [if_pos h1] at h; cases h
  rw [if_neg h1] at h
  by_cases h2 : s.unchecked.any (fun u => u.id == c.event.id && u.counter == k) = false
  · rw [if_pos h2] at h; cases h
  rw [if_neg h2] at h
  by_cases h3 : s.block + s.period < pow32
  · rw [if_pos h3] at h
    cases h
    refine ⟨⟨?_, ?_⟩, rfl⟩
    · intro u hu
      simp only [emit] at hu
      have hn : (s.unchecked.map Unchecked.counter).Nodup := (List.nodup_append.1 hc.1).1
      have hex : s.unchecked.any (fun u => u.id == c.event.id && u.counter == k) = true := by simpa using h2
      clear h1 h2 h3 hc
      generalize s.unchecked = l at hu hn hex
      induction l with
      | nil => simp at hu
      | cons a l ih =>
        rw [List.map_cons, List.nodup_cons] at hn
        by_cases ha : (a.id == c.event.id && a.counter == k) = true
        · rw [List.eraseP_cons_of_pos (p := fun u : Unchecked => u.id == c.event.id && u.counter == k) ha] at hu
          simp only [Bool.and_eq_true, beq_iff_eq] at ha
          intro e
          exact hn.1 (List.mem_map.2 ⟨u, hu, e.trans ha.2.symm⟩)
        · rw [List.eraseP_cons_of_neg (p := fun u : Unchecked => u.id == c.event.id && u.counter == k) ha] at hu
          have ha' : (a.id == c.event.id && a.counter == k) = false := by simpa using ha
          rw [List.any_cons, ha', Bool.false_or] at hex
          rcases List.mem_cons.1 hu with rfl | hu
          · obtain ⟨w, hw, hqw⟩ := List.any_eq_true.1 hex
            simp only [Bool.and_eq_true, beq_iff_eq] at hqw
            intro e
            exact hn.1 (List.mem_map.2 ⟨w, hw, hqw.2.trans e.symm⟩)
          · exact ih hu hn.2 hex
    · have hex : s.unchecked.any (fun u => u.id == c.event.id && u.counter == k) = true := by simpa using h2
      obtain ⟨u, hu, hqu⟩ := List.any_eq_true.1 hex
      simp only [Bool.and_eq_true, beq_iff_eq] at hqu
      exact hc.2 _ (List.mem_append.2 (.inl (List.mem_map.2 ⟨u, hu, hqu.2⟩)))
  · rw [if_neg h3] at h; cases h

theorem process_done {s s1 : State W} {id : EventId} {k n : Nat} {g : Bool} (hc : Counters s) (hq : (queued s).Nodup)
    (hv : validProcess s id k n g = true) (h : processEvent handler s id n = .ok s1) : Done s1 k ∧ s1.ingress = s.ingress := by
  have hex : ∃ q ∈ s.pending, q.id = id ∧ q.counter = k := by
    unfold validProcess at hv
    simp only [Bool.and_eq_true, List.any_eq_true, beq_iff_eq] at hv
    obtain ⟨⟨⟨q, h1, h2⟩, -⟩, -⟩ := hv
    exact ⟨q, h1, h2⟩
  obtain ⟨q, hq1, hq2, hq3⟩ := hex
  have hpend : s1.pending = removeLast s.pending id ∧ s1.unchecked = s.unchecked ∧ s1.ingress = s.ingress := by
    unfold processEvent at h
    by_cases h1 : Avn.isValidator s.validators n = false
    · rw [if_pos h1] at h; cases h
    rw [if_neg h1] at h
    cases hl : lastPending s.pending id with
    | none => rw [hl] at h; cases h
    | some p =>
      rw [hl] at h
      dsimp only at h
      by_cases h2 : s.block ≤ p.check.readyAfter
      · rw [if_pos h2] at h; cases h
      rw [if_neg h2] at h
      by_cases h3 : p.check.result = .ok ∧ challengeSuccessful s p.check = false ∧ s.processed id.txHash = none
      · rw [if_pos h3] at h; cases h; exact ⟨rfl, rfl, rfl⟩
      · rw [if_neg h3] at h; cases h; exact ⟨rfl, rfl, rfl⟩
  obtain ⟨e1, e2, e3⟩ := hpend
  obtain ⟨c1, c2, c3⟩ := List.nodup_append.1 hc.1
  have hnp : (s.pending.map Pending.id).Nodup := (List.nodup_append.1 hq).2.1
  have hpk : s.pending.map Pending.counter |>.Nodup := c2
  refine ⟨⟨⟨?_, ?_⟩, ?_⟩, e3⟩
  · intro u hu
    rw [e2] at hu
    intro e
    exact c3 u.counter (List.mem_map.2 ⟨u, hu, rfl⟩) q.counter (List.mem_map.2 ⟨q, hq1, rfl⟩) (e.trans hq3.symm)
  · rw [e3]; exact hc.2 _ (List.mem_append.2 (.inr (List.mem_map.2 ⟨q, hq1, hq3⟩)))
  · intro p hp e
    rw [e1] at hp
    have hp' := (removeLast_sublist s.pending id).subset hp
    have : p = q := List.inj_on_of_nodup_map hpk hp' hq1 (e.trans hq3.symm)
    subst this
    exact removeLast_not_mem (id := id) hnp (List.mem_map.2 ⟨p, hp, hq2⟩)

/-! ### C116 -/

/-- **C116, check results.** After the result of checking a logged event was taken, the pool refuses every result for that entry of the log, whoever's and
whatever it says: the counter of the entry is in the signed data, and is not used again even if the event is logged again. -/
theorem C116_check_result (c : Config W) (pre later : List (Step W)) (hb : c.lifts.length + pre.length + later.length < 2 ^ 64) (chk : Check) (k : Nat)
    (s1 : State W) (h : submitCheck (c.after handler pre) chk k = .ok s1) (chk' : Check) (n : Nat) (d g : Bool) :
    validSubmit (run handler s1 later) chk' k n d g = false := by
  obtain ⟨i1, -, -, i4⟩ := counters_run c handler pre (by omega)
  obtain ⟨h1, h2⟩ := submit_checked i4 h
  have hk := (keep_run (P := fun s => Checked s k) (fun x s s' hb hp v => checked_view (handler := handler) hb hp v) h1 later (by omega)).1
  unfold validSubmit
  have : (run handler s1 later).unchecked.any (fun u => u.id == chk'.event.id && u.counter == k) = false := by
    rw [List.any_eq_false]
    intro u hu
    have := hk.1 u hu
    simp [this]
  rw [this]
  simp

/-- **C116, processing, and challenges of a processed event.** After an entry of the log was processed, the pool refuses to process or challenge it. -/
theorem C116_process (c : Config W) (pre later : List (Step W)) (hb : c.lifts.length + pre.length + later.length < 2 ^ 64) (id : EventId) (k n : Nat)
    (g : Bool) (hv : validProcess (c.after handler pre) id k n g = true) (s1 : State W) (h : processEvent handler (c.after handler pre) id n = .ok s1)
    (id' : EventId) (by_ n' : Nat) (g' : Bool) :
    validProcess (run handler s1 later) id' k n' g' = false ∧ validChallenge (run handler s1 later) id' by_ k n' g' = false := by
  obtain ⟨i1, -, -, i4⟩ := counters_run c handler pre (by omega)
  obtain ⟨h1, h2⟩ := process_done i4 (c.inv handler pre).nodup hv h
  have hk := (keep_run (P := fun s => Done s k) (fun x s s' hb hp v => done_view (handler := handler) hb hp v) h1 later (by omega)).1
  have : (run handler s1 later).pending.any (fun p => p.id == id' && p.counter == k) = false := by
    rw [List.any_eq_false]
    intro p hp
    have := hk.2 p hp
    simp [this]
  constructor
  · unfold validProcess; rw [this]; simp
  · unfold validChallenge; rw [this]; simp

/-- **C116 is false for challenges of events**: an accepted challenge is admitted again until the event is processed (and then does nothing, C117). -/
theorem C116_full_claim_false_event_challenges (s s1 : State W) (id : EventId) (by_ k : Nat) (g : Bool) (h : challengeEvent s id by_ k = .ok s1) :
    validChallenge s1 id by_ k by_ g = validChallenge s id by_ k by_ g := by
  unfold challengeEvent at h
  by_cases h1 : Avn.isValidator s.validators by_ = false
  · rw [if_pos h1] at h; cases h
  rw [if_neg h1] at h
  cases hf : s.pending.reverse.find? (fun p => p.id == id && p.counter == k) with
  | none => rw [hf] at h; cases h
  | some p =>
    rw [hf] at h
    dsimp only at h
    by_cases h2 : p.check.checkedBy = by_
    · rw [if_pos h2] at h; cases h
    rw [if_neg h2] at h
    by_cases h3 : by_ ∈ s.challenges id
    · rw [if_pos h3] at h; cases h
    rw [if_neg h3] at h
    cases h
    rfl

/-! ### C117 -/

/-- **C117, check results and processing** (they are refused, so executing them again in a block changes nothing). -/
theorem C117_check_result (c : Config W) (pre later : List (Step W)) (hb : c.lifts.length + pre.length + later.length < 2 ^ 64) (chk : Check) (k : Nat)
    (s1 : State W) (h : submitCheck (c.after handler pre) chk k = .ok s1) (chk' : Check) (n : Nat) (d g : Bool) :
    step handler (run handler s1 later) (.submit chk' k n d g) = run handler s1 later := by
  simp only [step]
  rw [C116_check_result c pre later hb chk k s1 h chk' n d g, if_neg Bool.false_ne_true]

/-- See `C117_check_result`. -/
theorem C117_process (c : Config W) (pre later : List (Step W)) (hb : c.lifts.length + pre.length + later.length < 2 ^ 64) (id : EventId) (k n : Nat)
    (g : Bool) (hv : validProcess (c.after handler pre) id k n g = true) (s1 : State W) (h : processEvent handler (c.after handler pre) id n = .ok s1)
    (id' : EventId) (n' : Nat) (g' : Bool) :
    step handler (run handler s1 later) (.process id' k n' g') = run handler s1 later := by
  simp only [step]
  rw [(C116_process c pre later hb id k n g hv s1 h id' 0 n' g').1, if_neg Bool.false_ne_true]

/-- The challenge is on record, or its entry of the log is no longer pending. -/
def Challenged (s : State W) (id : EventId) (by_ k : Nat) : Prop := k ≤ s.ingress ∧ (by_ ∈ s.challenges id ∧ (∀ u ∈ s.unchecked, u.counter ≠ k) ∨ Done s k)

/-- All the invariants used together. -/
def Full (s : State W) : Prop := Counters s ∧ (queued s).Nodup

theorem full_view {x : Step W} {s s' : State W} (hb : s.ingress + 1 < pow64) (h : Full s) (v : View handler s x s') : Full s' :=
  ⟨counters_view hb h.1 v, queued_nodup_view h.2 v⟩

theorem settle_challenged {s s' : State W} {id i : EventId} {p : Pending} {by_ k : Nat} (hf : Full s) (hp : lastPending s.pending i = some p)
    (h : by_ ∈ s.challenges id) (hu : ∀ u ∈ s.unchecked, u.counter ≠ k) (hk : k ≤ s.ingress)
    (hid : ∀ q ∈ s.pending, q.counter = k → q.id = id)
    (e1 : s'.pending = removeLast s.pending i) (e2 : s'.unchecked = s.unchecked) (e3 : s'.ingress = s.ingress)
    (e4 : s'.challenges = if challengeSuccessful s p.check = true then s.challenges else upd s.challenges i []) : Challenged s' id by_ k := by
  refine ⟨by rw [e3]; exact hk, ?_⟩
  by_cases hi : id = i
  · right
    subst hi
    refine ⟨⟨by rw [e2]; exact hu, by rw [e3]; exact hk⟩, ?_⟩
    intro q hq e
    rw [e1] at hq
    have hq' := (removeLast_sublist s.pending id).subset hq
    have hnp : (s.pending.map Pending.id).Nodup := (List.nodup_append.1 hf.2).2.1
    exact removeLast_not_mem (id := id) hnp (List.mem_map.2 ⟨q, hq, hid q hq' e⟩)
  · left
    refine ⟨?_, by rw [e2]; exact hu⟩
    rw [e4]
    by_cases hs : challengeSuccessful s p.check = true
    · rw [if_pos hs]; exact h
    · rw [if_neg hs, upd_ne _ _ hi]; exact h

/-- The pending entry with this counter, if any, is the event's. -/
def Owned (s : State W) (id : EventId) (k : Nat) : Prop := ∀ q ∈ s.pending, q.counter = k → q.id = id

theorem challenged_view {x : Step W} {s s' : State W} {id : EventId} {by_ k : Nat} (hb : s.ingress + 1 < pow64)
    (hf : Full s) (ho : Owned s id k) (h : Challenged s id by_ k) (v : View handler s x s') : Challenged s' id by_ k ∧ Owned s' id k := by
  obtain ⟨h0, ⟨h1, h2⟩ | hd⟩ := h
  · cases v with
    | frame s' hu hp hpr hc hq hi hf' hl =>
      exact ⟨⟨by rw [hi]; exact h0, .inl ⟨by rw [hc]; exact h1, by rw [hu]; exact h2⟩⟩, by unfold Owned; rw [hp]; exact ho⟩
    | period p hp => exact ⟨⟨h0, .inl ⟨h1, h2⟩⟩, ho⟩
    | bridge tx acc hne => exact ⟨⟨h0, .inl ⟨h1, h2⟩⟩, ho⟩
    | added ty tx a nonces hf' hpr hx hlen hx0 =>
      have hc := checked_view (handler := handler) hb ⟨h2, h0⟩ (.added (x := x) ty tx a nonces hf' hpr hx hlen hx0)
      exact ⟨⟨hc.2, .inl ⟨h1, hc.1⟩⟩, ho⟩
    | submitted c counter hv hex hb' hs =>
      refine ⟨⟨h0, .inl ⟨h1, fun u hu => h2 u (List.mem_of_mem_eraseP hu)⟩⟩, ?_⟩
      intro q hq e
      rcases pushBounded_mem hq with hq | rfl
      · exact ho q hq e
      · exfalso
        obtain ⟨u, hu, hqu⟩ := List.any_eq_true.1 hex
        simp only [Bool.and_eq_true, beq_iff_eq] at hqu
        exact h2 u hu (hqu.2.trans e)
    | delivered i named p hp hb' hr hc hn hv =>
      exact ⟨settle_challenged hf hp h1 h2 h0 ho rfl rfl rfl rfl, fun q hq e => ho q ((removeLast_sublist ..).subset hq) e⟩
    | refused i named p hp hb' hr hv =>
      exact ⟨settle_challenged hf hp h1 h2 h0 ho rfl rfl rfl rfl, fun q hq e => ho q ((removeLast_sublist ..).subset hq) e⟩
    | challenged i b counter p hv hp hself hdup =>
      refine ⟨⟨h0, .inl ⟨?_, h2⟩⟩, ho⟩
      simp only [emit]
      by_cases e : id = i
      · subst e; rw [upd_same]; exact mem_pushBounded_old h1
      · rw [upd_ne _ _ e]; exact h1
  · have := done_view (handler := handler) hb hd v
    exact ⟨⟨this.1.2, .inr this⟩, fun q hq e => absurd e (this.2 q hq)⟩

/-- **C117, challenges of events.** An accepted challenge changes nothing when executed again at any later time, also after the event was processed and logged
again. Missing for the full property: a challenge beyond the fiftieth (the list is full) is not recorded, and can be repeated. -/
theorem C117_event_challenge_partial (c : Config W) (pre later : List (Step W)) (hb : c.lifts.length + pre.length + later.length < 2 ^ 64) (id : EventId)
    (by_ k : Nat) (s1 : State W) (h : challengeEvent (c.after handler pre) id by_ k = .ok s1)
    (hroom : ((c.after handler pre).challenges id).length < 50) (n : Nat) (g : Bool) :
    step handler (run handler s1 later) (.challenge id by_ k n g) = run handler s1 later := by
  obtain ⟨i1, -, -, i4⟩ := counters_run c handler pre (by omega)
  have hfull : Full (c.after handler pre) := ⟨i4, (c.inv handler pre).nodup⟩
  generalize c.after handler pre = s at *
  have start : Full s1 ∧ Challenged s1 id by_ k ∧ Owned s1 id k ∧ s1.ingress = s.ingress := by
    unfold challengeEvent at h
    by_cases h1 : Avn.isValidator s.validators by_ = false
    · rw [if_pos h1] at h; cases h
    rw [if_neg h1] at h
    cases hf : s.pending.reverse.find? (fun p => p.id == id && p.counter == k) with
    | none => rw [hf] at h; cases h
    | some p =>
      rw [hf] at h
      dsimp only at h
      by_cases h2 : p.check.checkedBy = by_
      · rw [if_pos h2] at h; cases h
      rw [if_neg h2] at h
      by_cases h3 : by_ ∈ s.challenges id
      · rw [if_pos h3] at h; cases h
      rw [if_neg h3] at h
      cases h
      have hm : p ∈ s.pending := by simpa using List.mem_of_find?_eq_some hf
      have hp := List.find?_some hf
      simp only [Bool.and_eq_true, beq_iff_eq] at hp
      obtain ⟨c1, c2, c3⟩ := List.nodup_append.1 i4.1
      refine ⟨hfull, ⟨?_, .inl ⟨?_, ?_⟩⟩, ?_, rfl⟩
      · exact i4.2 _ (List.mem_append.2 (.inr (List.mem_map.2 ⟨p, hm, hp.2⟩)))
      · simp only [emit]
        rw [upd_same]
        unfold pushBounded maxChallenges
        rw [if_pos hroom]; simp
      · intro u hu e
        exact c3 u.counter (List.mem_map.2 ⟨u, hu, rfl⟩) p.counter (List.mem_map.2 ⟨p, hm, rfl⟩) (e.trans hp.2.symm)
      · intro q hq e
        have : q = p := List.inj_on_of_nodup_map c2 hq hm (e.trans hp.2.symm)
        rw [this]; exact hp.1
  obtain ⟨f1, f2, f3, f4⟩ := start
  obtain ⟨-, k2, -⟩ := (keep_run (P := fun s => Full s ∧ Challenged s id by_ k ∧ Owned s id k)
    (fun x s s' hb hp v => ⟨full_view (handler := handler) hb hp.1 v, challenged_view (handler := handler) hb hp.1 hp.2.2 hp.2.1 v⟩)
    ⟨f1, f2, f3⟩ later (by omega)).1
  simp only [step]
  by_cases hv : validChallenge (run handler s1 later) id by_ k n g = true
  · rw [if_pos hv]
    obtain ⟨-, ⟨h1, -⟩ | hd⟩ := k2
    · cases hc : challengeEvent (run handler s1 later) id by_ k with
      | error e => rfl
      | ok s2 =>
        exfalso
        unfold challengeEvent at hc
        by_cases g1 : Avn.isValidator (run handler s1 later).validators by_ = false
        · rw [if_pos g1] at hc; cases hc
        rw [if_neg g1] at hc
        cases hf : (run handler s1 later).pending.reverse.find? (fun p => p.id == id && p.counter == k) with
        | none => rw [hf] at hc; cases hc
        | some p =>
          rw [hf] at hc
          dsimp only at hc
          by_cases g2 : p.check.checkedBy = by_
          · rw [if_pos g2] at hc; cases hc
          rw [if_neg g2, if_pos h1] at hc; cases hc
    · exfalso
      unfold validChallenge at hv
      simp only [Bool.and_eq_true, List.any_eq_true, beq_iff_eq] at hv
      obtain ⟨⟨⟨⟨p, hp, -, e⟩, -⟩, -⟩, -⟩ := hv
      exact hd.2 p hp e
  · rw [if_neg hv]

theorem challenge_full (s : State W) (id : EventId) (by_ k : Nat) (p : Pending) (h1 : ¬ Avn.isValidator s.validators by_ = false)
    (hf : s.pending.reverse.find? (fun p => p.id == id && p.counter == k) = some p) (h2 : ¬ p.check.checkedBy = by_)
    (h3 : ¬ by_ ∈ s.challenges id) (hfull : 50 ≤ (s.challenges id).length) : challengeEvent s id by_ k = .ok (emit s [.challenged id by_]) := by
  have hpush : pushBounded maxChallenges (s.challenges id) by_ = s.challenges id := by
    unfold pushBounded maxChallenges; rw [if_neg (by omega)]
  have hupd : upd s.challenges id (s.challenges id) = s.challenges := by
    funext x; rw [upd_apply]; by_cases e : x = id
    · rw [if_pos e, e]
    · rw [if_neg e]
  unfold challengeEvent
  rw [if_neg h1, hf]
  dsimp only
  rw [if_neg h2, if_neg h3, hpush, hupd]

/-- **C117 is false for the fifty-first challenge**: it is announced and not recorded, so whoever sends it again has it announced again, without end. -/
theorem C117_full_claim_false_event_challenges (s s1 : State W) (id : EventId) (by_ k : Nat) (h : challengeEvent s id by_ k = .ok s1)
    (hfull : 50 ≤ (s.challenges id).length) :
    ∃ s2, challengeEvent s1 id by_ k = .ok s2 ∧ s1.log = s.log ++ [(s.block, .challenged id by_)] ∧
      s2.log = s.log ++ [(s.block, .challenged id by_), (s.block, .challenged id by_)] ∧ s1.challenges = s.challenges := by
  unfold challengeEvent at h
  by_cases h1 : Avn.isValidator s.validators by_ = false
  · rw [if_pos h1] at h; cases h
  rw [if_neg h1] at h
  cases hf : s.pending.reverse.find? (fun p => p.id == id && p.counter == k) with
  | none => rw [hf] at h; cases h
  | some p =>
    rw [hf] at h
    dsimp only at h
    by_cases h2 : p.check.checkedBy = by_
    · rw [if_pos h2] at h; cases h
    rw [if_neg h2] at h
    by_cases h3 : by_ ∈ s.challenges id
    · rw [if_pos h3] at h; cases h
    rw [if_neg h3] at h
    have hpush : pushBounded maxChallenges (s.challenges id) by_ = s.challenges id := by
      unfold pushBounded maxChallenges; rw [if_neg (by omega)]
    have hupd : upd s.challenges id (s.challenges id) = s.challenges := by
      funext x; rw [upd_apply]; by_cases e : x = id
      · rw [if_pos e, e]
      · rw [if_neg e]
    rw [hpush, hupd] at h
    cases h
    refine ⟨emit (emit s [.challenged id by_]) [.challenged id by_], ?_, rfl, by simp [emit], rfl⟩
    exact challenge_full (emit s [.challenged id by_]) id by_ k p h1 hf h2 h3 hfull

/-! ### Concrete histories -/

namespace Example

/-- A check result is taken (C116_check_result, C117_check_result apply) and refused afterwards. -/
example : (submitCheck (cfg.after accept (history.take 2)) (chk 42 3) 3).isOk = true ∧
    validSubmit (cfg.after accept (history.take 2)) (chk 42 3) 3 13 true true = true ∧
    validSubmit (cfg.after accept (history.take 3)) (chk 42 3) 3 13 true true = false := by decide +kernel

/-- An event is processed (C116_process, C117_process apply). -/
example : validProcess (cfg.after accept (history.take 7)) (mint 42) 3 12 true = true ∧
    (processEvent accept (cfg.after accept (history.take 7)) (mint 42) 12).isOk = true ∧
    validProcess (cfg.after accept history) (mint 42) 3 12 true = false := by decide +kernel

/-- A challenge is accepted, admitted again, and counts once. -/
example : (challengeEvent (cfg.after accept (history.take 3)) (mint 42) 11 3).isOk = true ∧
    ((cfg.after accept (history.take 3)).challenges (mint 42)).length < 50 ∧
    validChallenge (cfg.after accept (history.take 4)) (mint 42) 11 3 11 true = true ∧
    (cfg.after accept (history.take 4 ++ [.challenge (mint 42) 11 3 11 true])).challenges (mint 42) = [11] := by decide +kernel

/-- A full list: sixty validators, fifty challenges. -/
def crowd : Config Nat := { cfg with validators := (List.range 60).map (fun i => ⟨10 + i, 110 + i⟩) }

example : let s := crowd.after accept ([.addLog .nftMint 42 1, .submit (chk 42 0) 3 10 true true] ++
      (List.range 50).map (fun i => Step.challenge (mint 42) (11 + i) 3 (11 + i) true))
    (s.challenges (mint 42)).length = 50 ∧ (challengeEvent s (mint 42) 65 3).isOk = true := by decide +kernel

end Example

end Verif.EthEvents
