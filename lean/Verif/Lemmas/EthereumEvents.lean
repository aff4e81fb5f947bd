import Verif.Model.EthereumEvents
import Mathlib.Data.List.Induction
import Mathlib.Data.List.Nodup

namespace Verif.EthEvents

open Verif Verif.Events

variable {W : Type} {handler : EthEvent → W → W × Bool}

theorem run_snoc (s : State W) (l : List (Step W)) (x : Step W) :
    run handler s (l ++ [x]) = step handler (run handler s l) x := by simp [run]

theorem run_append (s : State W) (a b : List (Step W)) :
    run handler s (a ++ b) = run handler (run handler s a) b := by simp [run]

/-- What one step can do. -/
inductive View (handler : EthEvent → W → W × Bool) (s : State W) (x : Step W) : State W → Prop
  | frame (s' : State W) (hu : s'.unchecked = s.unchecked) (hp : s'.pending = s.pending) (hpr : s'.processed = s.processed)
      (hc : s'.challenges = s.challenges) (hq : s'.quorumFactor = s.quorumFactor) (hi : s'.ingress = s.ingress)
      (hf : s'.filter = s.filter) (hl : s'.log = s.log) : View handler s x s'
  | period (p : Nat) (hp : minPeriod ≤ p) : View handler s x (emit { s with period := p } [.periodSet p])
  | bridge (tx : Nat) (acc : Bool) (h : s.processed tx ≠ some true) :
      View handler s x { s with processed := upd s.processed tx (some acc) }
  | added (ty : ValidEvent) (tx a : Nat) (nonces : Nat → Nat) (hf : s.filter.contains ty = true)
      (hpr : isPrimary ty = true) (hx : existsInSystem s ⟨signature ty, tx⟩ = false)
      (hlen : s.unchecked.length < maxUnchecked) (h0 : tx ≠ 0) :
      View handler s x (emit
        { s with
          nonces := nonces
          ingress := wrapInc64 s.ingress
          unchecked := s.unchecked ++ [⟨⟨signature ty, tx⟩, wrapInc64 s.ingress, s.block⟩] }
        [.added ⟨signature ty, tx⟩ (wrapInc64 s.ingress) a])
  | submitted (c : Check) (counter : Nat) (hv : Avn.isValidator s.validators c.checkedBy = true)
      (hex : s.unchecked.any (fun u => u.id == c.event.id && u.counter == counter) = true)
      (hb : s.block + s.period < pow32) (hs : ∃ n d g, x = .submit c counter n d g ∧ validSubmit s c counter n d g = true) :
      View handler s x (emit
        { s with
          pending := pushBounded maxPending s.pending
            ⟨{ c with readyAfter := s.block + s.period, minVotes := s.validators.length / s.quorumFactor }, counter, s.block⟩
          unchecked := s.unchecked.eraseP (fun u => u.id == c.event.id && u.counter == counter) }
        [.validated c.event c.result c.checkedBy counter s.period (s.validators.length / s.quorumFactor)])
  | delivered (id : EventId) (named : Nat) (p : Pending) (hp : lastPending s.pending id = some p)
      (hb : p.check.readyAfter < s.block) (hr : p.check.result = .ok) (hc : challengeSuccessful s p.check = false)
      (hn : s.processed id.txHash = none) (hv : Avn.isValidator s.validators named = true)
      (hs : ∃ k g, x = .process id k named g) :
      View handler s x (deliver handler (settle s p id named) p id)
  | refused (id : EventId) (named : Nat) (p : Pending) (hp : lastPending s.pending id = some p)
      (hb : p.check.readyAfter < s.block)
      (hr : ¬ (p.check.result = .ok ∧ challengeSuccessful s p.check = false ∧ s.processed id.txHash = none))
      (hv : Avn.isValidator s.validators named = true) (hs : ∃ k g, x = .process id k named g) :
      View handler s x (emit (settle s p id named) [.rejected id p.check.result (challengeSuccessful s p.check)])
  | challenged (id : EventId) (by_ counter : Nat) (p : Pending) (hv : Avn.isValidator s.validators by_ = true)
      (hp : s.pending.reverse.find? (fun p => p.id == id && p.counter == counter) = some p)
      (hself : p.check.checkedBy ≠ by_) (hdup : by_ ∉ s.challenges id)
      (hs : ∃ n g, x = .challenge id by_ counter n g) :
      View handler s x (emit { s with challenges := upd s.challenges id (pushBounded maxChallenges (s.challenges id) by_) }
            [.challenged id by_])

theorem View.refl {x : Step W} (s : State W) : View handler s x s := .frame s rfl rfl rfl rfl rfl rfl rfl rfl

theorem addEvent_view {x : Step W} {s s' : State W} {ty : ValidEvent} {tx a : Nat} {nonces : Nat → Nat} (h0 : tx ≠ 0)
    (h : addEvent { s with nonces := nonces } ty tx a = .ok s') : View handler s x s' := by
  unfold addEvent at h
  by_cases h1 : s.filter.contains ty = false
  · rw [if_pos h1] at h; cases h
  · rw [if_neg h1] at h
    by_cases h2 : isPrimary ty = false
    · rw [if_pos h2] at h; cases h
    · rw [if_neg h2] at h
      by_cases h3 : existsInSystem { s with nonces := nonces } ⟨signature ty, tx⟩ = true
      · rw [if_pos h3] at h; cases h
      · rw [if_neg h3] at h
        by_cases h4 : s.unchecked.length < maxUnchecked
        · rw [if_pos h4] at h
          injection h with h; subst h
          exact .added ty tx a nonces (by simpa using h1) (by simpa using h2)
            (by have := Bool.not_eq_true _ ▸ h3; exact this) h4 h0
        · rw [if_neg h4] at h; cases h

theorem step_view (s : State W) (x : Step W) : View handler s x (step handler s x) := by
  cases x with
  | addLog ty tx a =>
    simp only [step, addLog]
    by_cases h0 : tx = 0
    · rw [if_pos h0]; exact .refl s
    · rw [if_neg h0]
      cases h : addEvent s ty tx a with
      | error e => exact .refl s
      | ok s' => exact addEvent_view (nonces := s.nonces) h0 h
  | signedAddLog ty tx a g f =>
    simp only [step, signedAddLog]
    by_cases hs : a ≠ g
    · rw [if_pos hs]; exact .refl s
    rw [if_neg hs]
    by_cases h0 : tx = 0
    · rw [if_pos h0]; exact .refl s
    rw [if_neg h0]
    by_cases hf : f (s.nonces a) = false
    · rw [if_pos hf]; exact .refl s
    rw [if_neg hf]
    cases h : addEvent { s with nonces := upd s.nonces a (wrapInc64 (s.nonces a)) } ty tx a with
    | error e => exact .refl s
    | ok s' => exact addEvent_view h0 h
  | submit c k n d g =>
    simp only [step]
    by_cases hv : validSubmit s c k n d g = true
    · rw [if_pos hv]
      unfold submitCheck
      by_cases h1 : Avn.isValidator s.validators c.checkedBy = false
      · rw [if_pos h1]; exact .refl s
      rw [if_neg h1]
      by_cases h2 : s.unchecked.any (fun u => u.id == c.event.id && u.counter == k) = false
      · rw [if_pos h2]; exact .refl s
      rw [if_neg h2]
      by_cases h3 : s.block + s.period < pow32
      · rw [if_pos h3]; exact .submitted c k (by simpa using h1) (Bool.not_eq_false _ ▸ h2) h3 ⟨n, d, g, rfl, hv⟩
      · rw [if_neg h3]; exact .refl s
    · rw [if_neg hv]; exact .refl s
  | process id k n g =>
    simp only [step]
    by_cases hv : validProcess s id k n g = true
    · rw [if_pos hv]
      unfold processEvent
      by_cases h1 : Avn.isValidator s.validators n = false
      · rw [if_pos h1]; exact .refl s
      rw [if_neg h1]
      cases hp : lastPending s.pending id with
      | none => exact .refl s
      | some p =>
        dsimp only
        by_cases h2 : s.block ≤ p.check.readyAfter
        · rw [if_pos h2]; exact .refl s
        rw [if_neg h2]
        by_cases h3 : p.check.result = .ok ∧ challengeSuccessful s p.check = false ∧ s.processed id.txHash = none
        · rw [if_pos h3]
          exact .delivered id n p hp (by omega) h3.1 h3.2.1 h3.2.2 (by simpa using h1) ⟨k, g, rfl⟩
        · rw [if_neg h3]
          exact .refused id n p hp (by omega) h3 (by simpa using h1) ⟨k, g, rfl⟩
    · rw [if_neg hv]; exact .refl s
  | challenge id a k n g =>
    simp only [step]
    by_cases hv : validChallenge s id a k n g = true
    · rw [if_pos hv]
      unfold challengeEvent
      by_cases h1 : Avn.isValidator s.validators a = false
      · rw [if_pos h1]; exact .refl s
      rw [if_neg h1]
      cases hp : s.pending.reverse.find? (fun p => p.id == id && p.counter == k) with
      | none => exact .refl s
      | some p =>
        dsimp only
        by_cases h2 : p.check.checkedBy = a
        · rw [if_pos h2]; exact .refl s
        rw [if_neg h2]
        by_cases h3 : a ∈ s.challenges id
        · rw [if_pos h3]; exact .refl s
        rw [if_neg h3]
        exact .challenged id a k p (by simpa using h1) hp h2 h3 ⟨n, g, rfl⟩
    · rw [if_neg hv]; exact .refl s
  | setPeriod p =>
    simp only [step, setPeriod]
    by_cases h : p < minPeriod
    · rw [if_pos h]; exact .refl s
    · rw [if_neg h]; exact .period p (by omega)
  | bridge tx acc =>
    simp only [step]
    by_cases h : s.processed tx = some true
    · rw [if_pos h]; exact .refl s
    · rw [if_neg h]; exact .bridge tx acc h
  | environment b vs w => exact .frame _ rfl rfl rfl rfl rfl rfl rfl rfl

/-- Invariants along every history: what holds initially and is kept by every elementary transition. -/
theorem run_invariant {P : State W → Prop} (hstep : ∀ s x s', P s → View handler s x s' → P s') {s : State W} (h0 : P s)
    (steps : List (Step W)) : P (run handler s steps) := by
  induction steps using List.reverseRecOn with
  | nil => exact h0
  | append_singleton l x ih => rw [run_snoc]; exact hstep _ _ _ ih (step_view _ x)

/-! ### Lists -/

theorem lastPending_mem {l : List Pending} {id : EventId} {p : Pending} (h : lastPending l id = some p) :
    p ∈ l ∧ p.id = id := by
  unfold lastPending at h
  exact ⟨by simpa using List.mem_of_find?_eq_some h, by simpa using List.find?_some h⟩

theorem removeLast_sublist (l : List Pending) (id : EventId) : (removeLast l id).Sublist l := by
  unfold removeLast
  have := (List.eraseP_sublist (p := fun p : Pending => p.id == id) (l := l.reverse)).reverse
  simpa using this

/-- If the list has at most one entry for `id`, removing the last one removes all. -/
theorem removeLast_not_mem {l : List Pending} {id : EventId} (hn : (l.map Pending.id).Nodup) :
    id ∉ (removeLast l id).map Pending.id := by
  unfold removeLast
  have hn' : (l.reverse.map Pending.id).Nodup := by rw [List.map_reverse]; simpa using hn
  generalize l.reverse = r at hn'
  intro hmem
  have hmem' : id ∈ (r.eraseP (fun p : Pending => p.id == id)).map Pending.id := by
    simpa [List.map_reverse] using hmem
  clear hmem
  induction r with
  | nil => simp at hmem'
  | cons a r ih =>
    simp only [List.map_cons, List.nodup_cons] at hn'
    by_cases h : a.id = id
    · rw [List.eraseP_cons_of_pos (by simpa using h)] at hmem'
      exact hn'.1 (h ▸ hmem')
    · rw [List.eraseP_cons_of_neg (by simpa using h)] at hmem'
      simp only [List.map_cons, List.mem_cons] at hmem'
      rcases hmem' with e | hm
      · exact h e.symm
      · exact ih hn'.2 hm

theorem removeLast_other {l : List Pending} {id : EventId} {p : Pending} (hp : p ∈ l) (hne : p.id ≠ id) :
    p ∈ removeLast l id := by
  unfold removeLast
  rw [List.mem_reverse, List.mem_eraseP_of_neg (by simpa using hne)]
  simpa using hp

theorem pushBounded_mem {α : Type} {n : Nat} {l : List α} {a x : α} (h : x ∈ pushBounded n l a) : x ∈ l ∨ x = a := by
  unfold pushBounded at h
  by_cases hl : l.length < n
  · rw [if_pos hl] at h; simpa using h
  · rw [if_neg hl] at h; exact .inl h

theorem mem_pushBounded_old {α : Type} {n : Nat} {l : List α} {a x : α} (h : x ∈ l) : x ∈ pushBounded n l a := by
  unfold pushBounded
  by_cases hl : l.length < n
  · rw [if_pos hl]; simp [h]
  · rw [if_neg hl]; exact h

theorem pushBounded_length {α : Type} {n : Nat} {l : List α} {a : α} (h : l.length ≤ n) :
    (pushBounded n l a).length ≤ n := by
  unfold pushBounded
  by_cases hl : l.length < n
  · rw [if_pos hl]; simp; omega
  · rw [if_neg hl]; exact h

theorem genesisQueue_ids (k : Nat) (l : List Nat) :
    (genesisQueue k l).map Unchecked.id = l.map (fun h => ⟨signature .lifted, h⟩) := by
  induction l generalizing k with
  | nil => rfl
  | cons a l ih => simp [genesisQueue, ih]

end Verif.EthEvents
