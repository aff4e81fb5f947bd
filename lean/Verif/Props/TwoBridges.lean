import Verif.Lemmas.TwoBridges

/-! # C114: two bridge instances with one record of processed events -/

namespace Verif.TwoBridges

open Verif.Events
open Verif.EthBridge (EthEvent Obs handledHashes alreadyAccepted)

variable {W : Type} (handler : W → EthEvent → W × Bool)

/-- The transaction is recorded as processed, by either instance. -/
def Recorded (s : Pair W) (h : Nat) : Prop := s.main.processed h ≠ none ∨ s.old h ≠ none

/-- The transaction is recorded as accepted, by either instance. -/
def Accepted (s : Pair W) (h : Nat) : Prop := ∃ k, s.main.processed h = some (k, true) ∨ s.old h = some (k, true)

/-- C114 (partial: only what the main instance has on record counts, see `C114_unmoved_records_are_not_seen`): over any history, events
of one Ethereum transaction are delivered at most once by the two instances together, and never if the main instance had the transaction
on record. -/
theorem C114_delivered_at_most_once_partial (order : List Nat) (hn : order.Nodup) (s : Pair W) (steps : List (Step W)) :
    ∃ new, (run handler order s steps).main.log = s.main.log ++ new ∧ (handledHashes new).Nodup ∧
      ∀ h ∈ handledHashes new, s.main.processed h = none := by
  obtain ⟨new, hl, _, h2, h3⟩ := run_grow handler hn s steps
  exact ⟨new, hl, h2, fun h hh => (h3 h hh).1⟩

theorem step_recorded {order : List Nat} (hn : order.Nodup) (s : Pair W) (x : Step W) :
    (∀ h, Recorded s h → Recorded (step handler order s x) h) ∧ (∀ h, Accepted s h → Accepted (step handler order s x) h) := by
  have key : ∀ m, Keeps s.main m → ∀ b n, (∀ h, Recorded s h → Recorded { s with main := m, valid2 := b, network2 := n } h) ∧
      (∀ h, Accepted s h → Accepted { s with main := m, valid2 := b, network2 := n } h) := by
    intro m hm b n
    constructor
    · rintro h (q | q)
      · exact Or.inl (Option.isSome_iff_ne_none.1 (hm.stay h (Option.isSome_iff_ne_none.2 q)))
      · exact Or.inr q
    · rintro h ⟨k, q | q⟩
      · exact ⟨k, Or.inl (hm.acc h k q)⟩
      · exact ⟨k, Or.inr q⟩
  cases x with
  | main op => exact key _ (step_keeps handler s.main op) s.valid2 s.network2
  | secondEvent e =>
    refine key _ ?_ s.valid2 s.network2
    cases h : EthBridge.processEvent handler s.main s.network2 e with
    | none => exact Keeps.refl _
    | some s' => exact processEvent_keeps handler h
  | setSecond n => exact key s.main (Keeps.refl _) true n
  | idle w =>
    show (∀ h, _ → Recorded (onIdle order w s) h) ∧ (∀ h, _ → Accepted (onIdle order w s) h)
    by_cases hw : w = true ∧ Active s
    · obtain ⟨rfl, ha⟩ := hw
      rw [onIdle_spec hn s ha]
      constructor
      · intro h hh
        by_cases q : h ∈ batchKeys order s ∧ alreadyAccepted s.main h = false
        · left
          show (if _ then _ else _ : Option _) ≠ none
          rw [if_pos q]; exact Option.isSome_iff_ne_none.1 (batchKeys_some q.1).2
        · rcases hh with q2 | q2
          · left
            show (if _ then _ else _ : Option _) ≠ none
            rw [if_neg q]; exact q2
          · right
            show (if _ then _ else _ : Option _) ≠ none
            rw [if_neg q]; exact q2
      · rintro h ⟨k, hh⟩
        refine ⟨k, ?_⟩
        by_cases q : h ∈ batchKeys order s ∧ alreadyAccepted s.main h = false
        · left
          show (if _ then _ else _ : Option _) = _
          rw [if_pos q]
          rcases hh with q2 | q2
          · have := q.2
            unfold alreadyAccepted at this
            rw [q2] at this; cases this
          · exact q2
        · rcases hh with q2 | q2
          · left
            show (if _ then _ else _ : Option _) = _
            rw [if_neg q]; exact q2
          · right
            show (if _ then _ else _ : Option _) = _
            rw [if_neg q]; exact q2
    · rw [onIdle_idle s w hw]; exact ⟨fun _ h => h, fun _ h => h⟩

/-- C114: no record is ever lost, in particular not by moving it, and an accepted transaction remains recorded as accepted. -/
theorem C114_no_record_is_lost (order : List Nat) (hn : order.Nodup) (s : Pair W) (steps : List (Step W)) (h : Nat) :
    (Recorded s h → Recorded (run handler order s steps) h) ∧ (Accepted s h → Accepted (run handler order s steps) h) := by
  induction steps generalizing s with
  | nil => exact ⟨id, id⟩
  | cons x xs ih =>
    obtain ⟨h1, h2⟩ := step_recorded handler hn s x
    exact ⟨fun q => (ih (step handler order s x)).1 (h1 h q), fun q => (ih (step handler order s x)).2 (h2 h q)⟩

/-- C114: an event approved by the second instance has no effect unless both instances are on the same network (and the main one is set
up). -/
theorem C114_second_instance_needs_the_network_of_the_main (order : List Nat) (s : Pair W) (e : EthEvent)
    (h : s.main.instanceValid = false ∨ s.main.network ≠ s.network2) : step handler order s (.secondEvent e) = s := by
  have : EthBridge.processEvent handler s.main s.network2 e = none := by
    unfold EthBridge.processEvent EthBridge.addProcessedEventOn
    by_cases q : EthBridge.processedEventExists s.main s.network2 e = true
    · rw [if_pos q]
    · rw [if_neg q, if_neg]
      intro c
      simp only [Bool.and_eq_true, beq_iff_eq] at c
      rcases h with h | h
      · rw [h] at c; cases c.1
      · exact h c.2
  show { s with main := (EthBridge.processEvent handler s.main s.network2 e).getD s.main } = s
  rw [this]; rfl

theorem records_moved (order : List Nat) (hn : order.Nodup) (s : Pair W) (ha : Active s)
    (hc : ∀ h, s.old h ≠ none → alreadyAccepted s.main h = false) (n : Nat) (t : Pair W)
    (ht : t = run handler order s (List.replicate n (.idle true))) :
    remaining order t = (remaining order s).drop (batchBound * n) ∧
    (∀ h ∈ (remaining order s).take (batchBound * n), t.main.processed h = s.old h ∧ t.old h = none) ∧
    (∀ h, h ∉ (remaining order s).take (batchBound * n) → t.main.processed h = s.main.processed h ∧ t.old h = s.old h) ∧
    t.main.log = s.main.log ∧ t.main.world = s.main.world ∧ Active t ∧ (∀ h, t.old h ≠ none → alreadyAccepted t.main h = false) := by
  induction n generalizing t with
  | zero =>
    have e : t = s := ht
    rw [e]
    refine ⟨by simp, ?_, fun h _ => ⟨rfl, rfl⟩, rfl, rfl, ha, hc⟩
    intro h hh; simp at hh
  | succ n ih =>
    obtain ⟨u, hu⟩ : ∃ u, u = run handler order s (List.replicate n (.idle true)) := ⟨_, rfl⟩
    obtain ⟨i1, i2, i3, i4, i5, i6, i7⟩ := ih u hu
    have e : t = onIdle order true u := by
      rw [ht, List.replicate_succ', run_snoc, ← hu]; rfl
    rw [onIdle_spec hn u i6] at e
    have hb : batchKeys order u = ((remaining order s).drop (batchBound * n)).take batchBound := by
      unfold batchKeys; rw [i1]
    have hR : (remaining order s).Nodup := hn.filter _
    have htake : (remaining order s).take (batchBound * (n + 1)) = (remaining order s).take (batchBound * n) ++ batchKeys order u := by
      rw [hb, Nat.mul_succ, List.take_add]
    have hacc : ∀ h, h ∈ batchKeys order u → alreadyAccepted u.main h = false := fun h hh =>
      i7 h (Option.isSome_iff_ne_none.1 (batchKeys_some hh).2)
    have hp : ∀ h, t.main.processed h = if h ∈ batchKeys order u then u.old h else u.main.processed h := by
      intro h
      rw [e]
      show (if _ then _ else _ : Option _) = _
      by_cases q : h ∈ batchKeys order u
      · rw [if_pos ⟨q, hacc h q⟩, if_pos q]
      · rw [if_neg (fun w => q w.1), if_neg q]
    have ho : ∀ h, t.old h = if h ∈ batchKeys order u then none else u.old h := by
      intro h
      rw [e]
      show (if _ then _ else _ : Option _) = _
      by_cases q : h ∈ batchKeys order u
      · rw [if_pos ⟨q, hacc h q⟩, if_pos q]
      · rw [if_neg (fun w => q w.1), if_neg q]
    have hdis : ∀ h ∈ batchKeys order u, h ∉ (remaining order s).take (batchBound * n) := by
      intro h hh hx
      have := (i2 h hx).2
      have h2 := (batchKeys_some hh).2
      rw [this] at h2; cases h2
    have hrem : remaining order t = (remaining order u).drop batchBound := by
      have e1 : remaining order t = (remaining order u).filter (fun h => decide (h ∉ batchKeys order u)) := by
        unfold remaining
        rw [List.filter_filter]
        apply List.filter_congr
        intro h _
        rw [ho h]
        by_cases q : h ∈ batchKeys order u
        · simp [q]
        · simp [q]
      rw [e1]
      have e2 : remaining order u = batchKeys order u ++ (remaining order u).drop batchBound := (List.take_append_drop _ _).symm
      have hU : (remaining order u).Nodup := hn.filter _
      rw [e2] at hU
      obtain ⟨_, _, hd⟩ := List.nodup_append.1 hU
      conv_lhs => rw [e2]
      rw [List.filter_append]
      have f1 : (batchKeys order u).filter (fun h => decide (h ∉ batchKeys order u)) = [] := by
        rw [List.filter_eq_nil_iff]; intro h hh; simp [hh]
      have f2 : ((remaining order u).drop batchBound).filter (fun h => decide (h ∉ batchKeys order u)) = (remaining order u).drop batchBound := by
        rw [List.filter_eq_self]
        intro h hh
        simp only [decide_eq_true_eq]
        intro hx
        exact hd h hx h hh rfl
      rw [f1, f2]; rfl
    refine ⟨?_, ?_, ?_, ?_, ?_, ?_, ?_⟩
    · rw [hrem, i1, List.drop_drop, Nat.mul_succ]
    · intro h hh
      rw [htake, List.mem_append] at hh
      rcases hh with q | q
      · have hnb : h ∉ batchKeys order u := fun w => hdis h w q
        rw [hp h, ho h, if_neg hnb, if_neg hnb]
        exact i2 h q
      · rw [hp h, ho h, if_pos q, if_pos q]
        exact ⟨(i3 h (hdis h q)).2, rfl⟩
    · intro h hh
      rw [htake, List.mem_append] at hh
      have q1 : h ∉ (remaining order s).take (batchBound * n) := fun w => hh (Or.inl w)
      have q2 : h ∉ batchKeys order u := fun w => hh (Or.inr w)
      rw [hp h, ho h, if_neg q2, if_neg q2]
      exact i3 h q1
    · rw [e]; exact i4
    · rw [e]; exact i5
    · rw [e]; exact i6
    · intro h hh
      rw [ho h] at hh
      by_cases q : h ∈ batchKeys order u
      · rw [if_pos q] at hh; exact absurd rfl hh
      · rw [if_neg q] at hh
        have := i7 h hh
        unfold alreadyAccepted at this ⊢
        rw [hp h, if_neg q]
        exact this

/-- C114: if both instances are on the same network and the main instance has accepted none of the transactions on the second one's
record, every block with spare weight moves the next 64 of them, with their kind and outcome, and nothing else changes: after `n` such
blocks, 64·`n` are moved. -/
theorem C114_records_are_moved_partial (order : List Nat) (hn : order.Nodup) (s : Pair W) (ha : Active s)
    (hc : ∀ h, s.old h ≠ none → alreadyAccepted s.main h = false) (n : Nat) (t : Pair W)
    (ht : t = run handler order s (List.replicate n (.idle true))) :
    remaining order t = (remaining order s).drop (64 * n) ∧
    (∀ h ∈ (remaining order s).take (64 * n), t.main.processed h = s.old h ∧ t.old h = none) ∧
    (∀ h, h ∉ (remaining order s).take (64 * n) → t.main.processed h = s.main.processed h ∧ t.old h = s.old h) ∧
    t.main.log = s.main.log ∧ t.main.world = s.main.world ∧ Active t ∧ (∀ h, t.old h ≠ none → alreadyAccepted t.main h = false) :=
  records_moved handler order hn s ha hc n t ht

/-- C114: a block without spare weight moves nothing, and neither does any block while the second instance is not set up, the main one is
not, or they are on different networks. -/
theorem C114_nothing_moves_otherwise (order : List Nat) (s : Pair W) (w : Bool)
    (h : w = false ∨ s.valid2 = false ∨ s.main.instanceValid = false ∨ s.main.network ≠ s.network2) :
    step handler order s (.idle w) = s := by
  refine onIdle_idle s w ?_
  rintro ⟨h1, h2, h3, h4⟩
  rcases h with q | q | q | q
  · rw [h1] at q; cases q
  · rw [h2] at q; cases q
  · rw [h4] at q; cases q
  · exact q h3

/-! ### What does not hold -/

/-- A handler that accepts everything and counts. -/
def counter : Nat → EthEvent → Nat × Bool := fun w _ => (w + 1, true)

/-- Two instances on network 1; the second has the given transactions on record as accepted lifts. -/
def pair (hs : List Nat) : Pair Nat where
  main := {
    instanceValid := true, network := 1, active := none, votes := [], processed := fun _ => none, submitted := [], queue := [],
    rangeSize := 20, authors := [1, 2, 3], world := 0, log := [] }
  valid2 := true
  network2 := 1
  old := fun h => if h ∈ hs then some (.lifted, true) else none

/-- The lift of transaction `h`. -/
def lift (h : Nat) : EthEvent := { signature := signature .lifted, txHash := h, payload := 5 }

/-- C114 does not hold as stated: a transaction the second instance has on record, but which has not been moved yet, is delivered again. -/
theorem C114_unmoved_records_are_not_seen : ∃ (s : Pair Nat) (e : EthEvent), Accepted s e.txHash ∧
    (step counter [e.txHash] s (.secondEvent e)).main.world = s.main.world + 1 :=
  ⟨pair [7], lift 7, ⟨.lifted, Or.inr (by decide +kernel)⟩, by decide +kernel⟩

/-- C114: records the main instance does not take are tried first again in the next block: if 64 of them come first, nothing is moved any
more, in any number of blocks. -/
theorem C114_refused_records_hold_up_the_rest (order : List Nat) (hn : order.Nodup) (s : Pair W)
    (hc : ∀ h ∈ (remaining order s).take 64, alreadyAccepted s.main h = true) (n : Nat) :
    run handler order s (List.replicate n (.idle true)) = s := by
  have one : onIdle order true s = s := by
    by_cases ha : Active s
    · rw [onIdle_spec hn s ha]
      have : ∀ h, ¬ (h ∈ batchKeys order s ∧ alreadyAccepted s.main h = false) := by
        rintro h ⟨q1, q2⟩
        rw [hc h q1] at q2; cases q2
      have e1 : (fun h => if h ∈ batchKeys order s ∧ alreadyAccepted s.main h = false then s.old h else s.main.processed h) = s.main.processed :=
        funext fun h => if_neg (this h)
      have e2 : (fun h => if h ∈ batchKeys order s ∧ alreadyAccepted s.main h = false then none else s.old h) = s.old :=
        funext fun h => if_neg (this h)
      rw [e1, e2]
    · exact onIdle_idle s true (fun q => ha q.2)
  induction n with
  | zero => rfl
  | succ n ih =>
    rw [List.replicate_succ', run_snoc, ih]; exact one

/-- Seventy transactions on record: 64 are moved in the first block, the rest in the second. -/
example : (run counter (List.range 100) (pair (List.range 70)) [.idle true]).old 63 = none ∧
    (run counter (List.range 100) (pair (List.range 70)) [.idle true]).main.processed 63 = some (.lifted, true) ∧
    (run counter (List.range 100) (pair (List.range 70)) [.idle true]).old 64 = some (.lifted, true) ∧
    (run counter (List.range 100) (pair (List.range 70)) [.idle true, .idle false, .idle true]).old 69 = none ∧
    (run counter (List.range 100) (pair (List.range 70)) [.idle true, .secondEvent (lift 63), .main (.addProcessed (lift 63) true)]).main.world = 0 :=
  by decide +kernel

/-- The second instance delivers the first 64 of them again before they are moved: then they come back in every block, and the other six
are never moved. -/
example : let s := run counter (List.range 100) (pair (List.range 70)) ((List.range 64).map fun h => .secondEvent (lift h))
    s.main.world = 64 ∧ (∀ n, run counter (List.range 100) s (List.replicate n (.idle true)) = s) := by
  refine ⟨by decide +kernel, fun n => C114_refused_records_hold_up_the_rest counter _ List.nodup_range _ ?_ n⟩
  decide +kernel

end Verif.TwoBridges
