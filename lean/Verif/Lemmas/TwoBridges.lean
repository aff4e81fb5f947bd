import Verif.Model.TwoBridges
import Verif.Lemmas.EthBridgeEvents
import Verif.Lemmas.EthereumEvents2

namespace Verif.TwoBridges

open Verif.Events
open Verif.EthBridge (EthEvent alreadyAccepted)

variable {W : Type}

theorem try_sig (k : ValidEvent) : tryFrom (signature k) = some k := by cases k <;> decide +kernel
theorem not_legacy (k : ValidEvent) : legacyLiftSignatures.contains (signature k) = false := by cases k <;> decide +kernel

/-- The state in which the entries `L` of the record `old` have been moved where the main instance takes them. -/
def moved (old : Nat → Option (ValidEvent × Bool)) (L : List Nat) (t : Pair W) : Pair W :=
  { t with
    main := { t.main with processed := fun h => if h ∈ L ∧ alreadyAccepted t.main h = false then old h else t.main.processed h }
    old := fun h => if h ∈ L ∧ alreadyAccepted t.main h = true then old h else t.old h }

theorem moveOne_spec (t : Pair W) (hv : t.main.instanceValid = true) (h : Nat) (k : ValidEvent) (b : Bool) :
    moveOne t.main.network t (toEvent h k, b) =
      { t with
        main := { t.main with processed := if alreadyAccepted t.main h then t.main.processed else upd t.main.processed h (some (k, b)) }
        old := if alreadyAccepted t.main h then upd t.old h (some (k, b)) else t.old } := by
  unfold moveOne EthBridge.addProcessedEventOn
  dsimp only
  rw [if_pos (by rw [hv]; simp)]
  unfold EthBridge.addProcessedEvent giveBack toEvent
  dsimp only
  cases ha : alreadyAccepted t.main h with
  | true => simp [try_sig]
  | false => simp only [Bool.false_eq_true, if_false, not_legacy, try_sig]

theorem fold_spec (old : Nat → Option (ValidEvent × Bool)) (n : Nat) (L : List Nat) (hn : L.Nodup) (ho : ∀ h ∈ L, (old h).isSome = true)
    (t : Pair W) (hv : t.main.instanceValid = true) (hnet : t.main.network = n) :
    (L.filterMap fun h => (old h).map fun r => (toEvent h r.1, r.2)).foldl (moveOne n) t = moved old L t := by
  subst hnet
  induction L generalizing t with
  | nil => unfold moved; simp
  | cons h L ih =>
    obtain ⟨h1, h2⟩ := List.nodup_cons.1 hn
    obtain ⟨⟨k, b⟩, hk⟩ := Option.isSome_iff_exists.1 (ho h (List.mem_cons_self ..))
    rw [List.filterMap_cons, hk]
    simp only [Option.map_some, List.foldl_cons]
    rw [moveOne_spec t hv h k b]
    have hmem : ∀ x, x ≠ h → (x ∈ h :: L ↔ x ∈ L) := fun x hx => by simp [hx]
    cases ha : alreadyAccepted t.main h with
    | true =>
      rw [if_pos rfl, if_pos rfl]
      rw [ih h2 (fun x hx => ho x (List.mem_cons_of_mem _ hx)) { t with old := upd t.old h (some (k, b)) } hv]
      unfold moved
      dsimp only
      congr 1
      · congr 1
        funext x
        by_cases hx : x = h
        · subst hx
          rw [if_neg (fun q => h1 q.1), if_neg (fun q => by rw [ha] at q; cases q.2)]
        · by_cases q : x ∈ L ∧ alreadyAccepted t.main x = false
          · rw [if_pos q, if_pos ⟨(hmem x hx).2 q.1, q.2⟩]
          · rw [if_neg q, if_neg (fun w => q ⟨(hmem x hx).1 w.1, w.2⟩)]
      · funext x
        by_cases hx : x = h
        · subst hx
          rw [if_neg (fun q => h1 q.1), if_pos ⟨List.mem_cons_self .., ha⟩, upd_same, hk]
        · by_cases q : x ∈ L ∧ alreadyAccepted t.main x = true
          · rw [if_pos q, if_pos ⟨(hmem x hx).2 q.1, q.2⟩]
          · rw [if_neg q, if_neg (fun w => q ⟨(hmem x hx).1 w.1, w.2⟩), upd_ne _ _ hx]
    | false =>
      rw [if_neg Bool.false_ne_true, if_neg Bool.false_ne_true]
      have hacc : ∀ x, x ≠ h → alreadyAccepted { t.main with processed := upd t.main.processed h (some (k, b)) } x = alreadyAccepted t.main x := by
        intro x hx
        unfold alreadyAccepted
        dsimp only
        rw [upd_ne _ _ hx]
      rw [ih h2 (fun x hx => ho x (List.mem_cons_of_mem _ hx)) { t with main := { t.main with processed := upd t.main.processed h (some (k, b)) } } hv]
      unfold moved
      dsimp only
      congr 1
      · congr 1
        funext x
        by_cases hx : x = h
        · subst hx
          rw [if_neg (fun q => h1 q.1), if_pos ⟨List.mem_cons_self .., ha⟩, upd_same, hk]
        · by_cases q : x ∈ L ∧ alreadyAccepted t.main x = false
          · rw [if_pos ⟨q.1, (hacc x hx).trans q.2⟩, if_pos ⟨(hmem x hx).2 q.1, q.2⟩]
          · rw [if_neg (fun w => q ⟨w.1, (hacc x hx).symm.trans w.2⟩), if_neg (fun w => q ⟨(hmem x hx).1 w.1, w.2⟩), upd_ne _ _ hx]
      · funext x
        by_cases hx : x = h
        · subst hx
          rw [if_neg (fun q => h1 q.1), if_neg (fun q => by rw [ha] at q; cases q.2)]
        · by_cases q : x ∈ L ∧ alreadyAccepted t.main x = true
          · rw [if_pos ⟨q.1, (hacc x hx).trans q.2⟩, if_pos ⟨(hmem x hx).2 q.1, q.2⟩]
          · rw [if_neg (fun w => q ⟨w.1, (hacc x hx).symm.trans w.2⟩), if_neg (fun w => q ⟨(hmem x hx).1 w.1, w.2⟩)]

/-- The entries a batch consists of. -/
def batchKeys (order : List Nat) (s : Pair W) : List Nat := (remaining order s).take batchBound

theorem batchKeys_some {order : List Nat} {s : Pair W} {h : Nat} (hh : h ∈ batchKeys order s) : h ∈ order ∧ (s.old h).isSome = true := by
  have := List.mem_of_mem_take hh
  unfold remaining at this
  exact List.mem_filter.1 this

/-- Whether `on_idle` does anything. -/
def Active (s : Pair W) : Prop := s.valid2 = true ∧ s.main.network = s.network2 ∧ s.main.instanceValid = true

/-- What `on_idle` does. -/
theorem onIdle_spec {order : List Nat} (hn : order.Nodup) (s : Pair W) (ha : Active s) :
    onIdle order true s =
      { s with
        main := { s.main with processed := fun h => if h ∈ batchKeys order s ∧ alreadyAccepted s.main h = false then s.old h else s.main.processed h }
        old := fun h => if h ∈ batchKeys order s ∧ alreadyAccepted s.main h = false then none else s.old h } := by
  obtain ⟨h1, h2, h3⟩ := ha
  unfold onIdle
  rw [if_pos (by rw [h1, h2, h3]; simp)]
  dsimp only
  have hL : (batchKeys order s).Nodup := (hn.filter _).sublist (List.take_sublist ..)
  unfold batchOf
  rw [show (remaining order s).take batchBound = batchKeys order s from rfl]
  rw [fold_spec s.old s.main.network (batchKeys order s) hL (fun h hh => (batchKeys_some hh).2) (takeOut s _) h3 rfl]
  unfold moved takeOut
  dsimp only
  congr 1
  funext h
  have hany : ((batchKeys order s).filterMap fun h => (s.old h).map fun r => (toEvent h r.1, r.2)).any (fun x => x.1.txHash == h) = true ↔
      h ∈ batchKeys order s := by
    rw [List.any_eq_true]
    constructor
    · rintro ⟨x, hx, he⟩
      obtain ⟨h', hh', q⟩ := List.mem_filterMap.1 hx
      obtain ⟨r, hr, rfl⟩ := Option.map_eq_some_iff.1 q
      have : h' = h := by simpa [toEvent] using he
      rw [← this]; exact hh'
    · intro hh
      obtain ⟨r, hr⟩ := Option.isSome_iff_exists.1 (batchKeys_some hh).2
      exact ⟨_, List.mem_filterMap.2 ⟨h, hh, by rw [hr]; rfl⟩, by simp [toEvent]⟩
  by_cases q : h ∈ batchKeys order s
  · rw [if_pos (hany.2 q)]
    cases e : alreadyAccepted s.main h with
    | true => simp [q]
    | false => simp [q]
  · rw [if_neg (fun x => q (hany.1 x)), if_neg (fun x => q x.1), if_neg (fun x => q x.1)]

theorem onIdle_idle {order : List Nat} (s : Pair W) (b : Bool) (h : ¬ (b = true ∧ Active s)) : onIdle order b s = s := by
  unfold onIdle
  rw [if_neg]
  intro q
  simp only [Bool.and_eq_true, beq_iff_eq] at q
  exact h ⟨q.1.1.1, q.1.1.2, q.1.2, q.2⟩

/-! ### Accepted events stay accepted -/

/-- Records of accepted events are not touched, and no record disappears. -/
structure Keeps (s s' : EthBridge.State W) : Prop where
  acc : ∀ h k, s.processed h = some (k, true) → s'.processed h = some (k, true)
  stay : ∀ h, (s.processed h).isSome = true → (s'.processed h).isSome = true

theorem Keeps.refl (s : EthBridge.State W) : Keeps s s := ⟨fun _ _ h => h, fun _ h => h⟩
theorem Keeps.of_eq {s s' : EthBridge.State W} (h : s'.processed = s.processed) : Keeps s s' :=
  ⟨fun _ _ q => by rw [h]; exact q, fun _ q => by rw [h]; exact q⟩
theorem Keeps.trans {s t u : EthBridge.State W} (h1 : Keeps s t) (h2 : Keeps t u) : Keeps s u :=
  ⟨fun h k q => h2.acc h k (h1.acc h k q), fun h q => h2.stay h (h1.stay h q)⟩

theorem addProcessed_keeps {s s' : EthBridge.State W} {e : EthEvent} {b : Bool} (h : EthBridge.addProcessedEvent s e b = some s') : Keeps s s' := by
  unfold EthBridge.addProcessedEvent at h
  cases ha : alreadyAccepted s e.txHash with
  | true => rw [if_pos ha] at h; cases h
  | false =>
    rw [if_neg (by rw [ha]; simp)] at h
    dsimp only at h
    have key : ∀ id, Keeps s { s with processed := upd s.processed e.txHash (some (id, b)) } := by
      intro id
      constructor
      · intro x k hx
        by_cases q : x = e.txHash
        · subst q
          unfold alreadyAccepted at ha
          rw [hx] at ha; cases ha
        · show upd s.processed e.txHash _ x = _
          rw [upd_ne _ _ q]; exact hx
      · intro x hx
        show (upd s.processed e.txHash _ x).isSome = true
        by_cases q : x = e.txHash
        · subst q; rw [upd_same]; rfl
        · rw [upd_ne _ _ q]; exact hx
    generalize (if legacyLiftSignatures.contains e.signature then some ValidEvent.lifted else tryFrom e.signature) = o at h
    cases o with
    | none => cases h
    | some id => injection h with h; rw [← h]; exact key id

theorem addOn_keeps {s s' : EthBridge.State W} {n : Nat} {e : EthEvent} {b : Bool} (h : EthBridge.addProcessedEventOn s n e b = some s') :
    Keeps s s' := by
  unfold EthBridge.addProcessedEventOn at h
  by_cases q : (s.instanceValid && s.network == n) = true
  · rw [if_pos q] at h; exact addProcessed_keeps h
  · rw [if_neg q] at h; cases h

variable (handler : W → EthEvent → W × Bool)

theorem processEvent_keeps {s s' : EthBridge.State W} {n : Nat} {e : EthEvent} (h : EthBridge.processEvent handler s n e = some s') :
    Keeps s s' := by
  unfold EthBridge.processEvent at h
  by_cases q : EthBridge.processedEventExists s n e = true
  · rw [if_pos q] at h; cases h
  · rw [if_neg q] at h
    cases ha : EthBridge.addProcessedEventOn s n e true with
    | none => rw [ha] at h; cases h
    | some s1 =>
      rw [ha] at h
      dsimp only at h
      injection h with h
      exact (addOn_keeps ha).trans (Keeps.of_eq (by rw [← h]))

theorem processDiscovered_keeps (n : Nat) (a : EthBridge.Active) (s : EthBridge.State W) (d : EthBridge.Discovered) :
    Keeps s (EthBridge.processDiscovered handler n a s d) := by
  unfold EthBridge.processDiscovered
  split
  · exact Keeps.refl s
  · split
    · split
      · exact Keeps.of_eq rfl
      · split
        · rename_i h; exact processEvent_keeps handler h
        · exact Keeps.of_eq rfl
    · exact Keeps.refl s

theorem foldl_keeps {α : Type} (f : EthBridge.State W → α → EthBridge.State W) (hf : ∀ s x, Keeps s (f s x)) (l : List α) (s : EthBridge.State W) :
    Keeps s (l.foldl f s) := by
  induction l generalizing s with
  | nil => exact Keeps.refl s
  | cons x l ih => exact (hf s x).trans (ih _)

theorem step_keeps (s : EthBridge.State W) (op : EthBridge.Step W) : Keeps s (EthBridge.step handler s op) := by
  cases op with
  | submitEvents a p =>
    simp only [EthBridge.step]
    by_cases ha : EthBridge.isAuthor s a = true
    · simp only [ha, if_true, EthBridge.transactional]
      cases hr : (EthBridge.submitEvents handler s a p).2 with
      | some e => simp only [Option.isSome_some, if_true]; exact Keeps.refl s
      | none =>
        simp only [Option.isSome_none, Bool.false_eq_true, if_false]
        obtain ⟨act, vs, -, -, -, -, -, -, h1 | h1⟩ := EthBridge.submitEvents_ok handler hr
        · rw [h1.2]; exact Keeps.of_eq rfl
        · rw [h1.2]
          have k : Keeps s (EthBridge.processPartition handler { s with log := s.log ++ [.eventVote a p] ++ [.approved p] } s.network act p) := by
            unfold EthBridge.processPartition
            dsimp only
            have := foldl_keeps (EthBridge.processDiscovered handler s.network act) (processDiscovered_keeps handler s.network act) p.events
              { s with log := s.log ++ [.eventVote a p] ++ [.approved p], votes := s.votes.filter (fun e => e.1 ≠ p) }
            exact ⟨this.acc, this.stay⟩
          refine k.trans ?_
          unfold EthBridge.advancePartition
          split <;> exact Keeps.of_eq rfl
    · simp only [ha, Bool.false_eq_true, if_false]; exact Keeps.refl s
  | submitBlock a l =>
    simp only [EthBridge.step]
    by_cases ha : EthBridge.isAuthor s a = true
    · simp only [ha, if_true, EthBridge.transactional]
      cases hr : (EthBridge.submitBlock s a l).2 with
      | some e => simp only [Option.isSome_some, if_true]; exact Keeps.refl s
      | none =>
        simp only [Option.isSome_none, Bool.false_eq_true, if_false]
        obtain ⟨b, vs, -, -, -, -, -, h1 | ⟨-, r, -, h1⟩⟩ := EthBridge.submitBlock_ok hr
        · rw [h1.2]; exact Keeps.of_eq rfl
        · rw [h1]; exact Keeps.of_eq rfl
    · simp only [ha, Bool.false_eq_true, if_false]; exact Keeps.refl s
  | admin keep a =>
    simp only [EthBridge.step, EthBridge.transactional]
    cases hr : (EthBridge.admin s keep a).2 with
    | some e => simp only [Option.isSome_some, if_true]; exact Keeps.refl s
    | none =>
      simp only [Option.isSome_none, Bool.false_eq_true, if_false]
      refine Keeps.of_eq ?_
      cases a with
      | queueAdditional x =>
        simp only [EthBridge.admin]
        by_cases h1 : alreadyAccepted s x = true
        · simp [h1]
        · simp only [h1, Bool.false_eq_true, if_false]
          cases EthBridge.tryInsert 16 s.queue x <;> rfl
      | restartDiscovery => rfl
      | setInstance v n => cases v <;> rfl
  | migrate n b =>
    refine foldl_keeps _ (fun s x => ?_) b s
    cases h : EthBridge.addProcessedEventOn s n x.1 x.2 with
    | none => exact Keeps.refl s
    | some s' => exact addOn_keeps h
  | addProcessed e acc =>
    simp only [EthBridge.step]
    cases h : EthBridge.addProcessedEvent s e acc with
    | none => exact Keeps.refl s
    | some s' => exact addProcessed_keeps h
  | newAuthors as => exact Keeps.of_eq rfl
  | external w => exact Keeps.of_eq rfl

/-- A step of the pair grows the log of the main instance as its own steps do. -/
theorem pair_grow {order : List Nat} (hn : order.Nodup) (s : Pair W) (x : Step W) :
    EthBridge.Grow s.main (step handler order s x).main := by
  cases x with
  | main op => exact EthBridge.step_grow handler s.main op
  | secondEvent e =>
    show EthBridge.Grow s.main ((EthBridge.processEvent handler s.main s.network2 e).getD s.main)
    cases h : EthBridge.processEvent handler s.main s.network2 e with
    | none => exact EthBridge.Grow.refl _
    | some s' => exact (EthBridge.processEvent_spec handler h).2.2.1
  | setSecond n => exact EthBridge.Grow.refl _
  | idle w =>
    show EthBridge.Grow s.main (onIdle order w s).main
    by_cases h : w = true ∧ Active s
    · obtain ⟨rfl, ha⟩ := h
      rw [onIdle_spec hn s ha]
      refine EthBridge.Grow.of_quiet [] (by simp) rfl ?_
      intro h hh
      show (if _ then _ else _ : Option _).isSome = true
      by_cases q : h ∈ batchKeys order s ∧ alreadyAccepted s.main h = false
      · rw [if_pos q]; exact (batchKeys_some q.1).2
      · rw [if_neg q]; exact hh
    · rw [onIdle_idle s w h]; exact EthBridge.Grow.refl _

theorem run_grow {order : List Nat} (hn : order.Nodup) (s : Pair W) (xs : List (Step W)) :
    EthBridge.Grow s.main (run handler order s xs).main := by
  induction xs generalizing s with
  | nil => exact EthBridge.Grow.refl _
  | cons x xs ih => exact (pair_grow handler hn s x).trans (ih _)

theorem run_snoc {order : List Nat} (s : Pair W) (xs : List (Step W)) (x : Step W) :
    run handler order s (xs ++ [x]) = step handler order (run handler order s xs) x := by
  simp [run]

end Verif.TwoBridges
