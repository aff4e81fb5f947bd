import Verif.Lemmas.EthereumEvents

/-! Invariants of the check / challenge / process pipeline. -/

namespace Verif.EthEvents

open Verif Verif.Events

variable {W : Type} {handler : EthEvent → W → W × Bool}

/-- Event ids waiting in either queue. -/
def queued (s : State W) : List EventId := s.unchecked.map Unchecked.id ++ s.pending.map Pending.id

theorem settle_log (s : State W) (p : Pending) (id : EventId) (named : Nat) :
    ∃ new : List Obs, (settle s p id named).log = s.log ++ new.map (fun e => (s.block, e)) ∧
      new = ([.processed id named ((s.processed id.txHash).isNone && !challengeSuccessful s p.check)] ++
      if challengeSuccessful s p.check = true then [.challengeSucceeded id p.check.result, .offence [p.check.checkedBy]]
      else if s.challenges id = [] then [] else [.offence (s.challenges id)]) := ⟨_, rfl, rfl⟩

theorem sublist_queued {l : List Unchecked} {m : List Pending} {l' : List Unchecked} {m' : List Pending}
    (hl : l'.Sublist l) (hm : m'.Sublist m) :
    (l'.map Unchecked.id ++ m'.map Pending.id).Sublist (l.map Unchecked.id ++ m.map Pending.id) :=
  (hl.map _).append (hm.map _)

/-- Moving an unchecked entry to the end of the pending queue permutes the ids. -/
theorem nodup_move {κ : Type} {f : Unchecked → κ} {g : Pending → κ} {l : List Unchecked} {m : List Pending}
    {q : Unchecked → Bool} {p : Pending}
    (hq : ∀ u, q u = true → f u = g p) (hex : l.any q = true)
    (hn : (l.map f ++ m.map g).Nodup) :
    ((l.eraseP q).map f ++ (m ++ [p]).map g).Nodup := by
  obtain ⟨u, hu, hqu⟩ := List.any_eq_true.1 hex
  obtain ⟨a, l1, l2, h1, ha, rfl, he⟩ := List.exists_of_eraseP hu hqu
  rw [he]
  have := hq a ha
  have perm : (List.map f (l1 ++ a :: l2) ++ m.map g).Perm
      (List.map f (l1 ++ l2) ++ (m ++ [p]).map g) := by
    simp only [List.map_append, List.map_cons, List.map_nil, this]
    rw [List.append_assoc, List.append_assoc]
    apply List.Perm.append_left
    rw [List.cons_append, ← List.append_assoc]
    exact (List.perm_append_singleton _ _).symm
  exact perm.nodup_iff.1 hn

theorem queued_nodup_view {x : Step W} {s s' : State W} (h : (queued s).Nodup) (v : View handler s x s') : (queued s').Nodup := by
  cases v with
  | frame s' hu hp _ _ _ _ _ => unfold queued; rw [hu, hp]; exact h
  | period p hp => exact h
  | bridge tx acc hne => exact h
  | added ty tx a nonces hf hpr hx hlen h0 =>
    simp only [existsInSystem, Bool.or_eq_false_iff] at hx
    unfold queued emit
    simp only [List.map_append, List.map_cons, List.map_nil]
    rw [List.append_assoc, List.nodup_append]
    unfold queued at h
    rw [List.nodup_append] at h
    have hu : (⟨signature ty, tx⟩ : EventId) ∉ s.unchecked.map Unchecked.id := by
      intro hm
      obtain ⟨u, hu, e⟩ := List.mem_map.1 hm
      have := List.any_eq_false.1 hx.1.2 u hu
      simp [e] at this
    have hp : (⟨signature ty, tx⟩ : EventId) ∉ s.pending.map Pending.id := by
      intro hm
      obtain ⟨u, hu, e⟩ := List.mem_map.1 hm
      have := List.any_eq_false.1 hx.2 u hu
      simp [e] at this
    refine ⟨h.1, ?_, ?_⟩
    · simp only [List.singleton_append, List.nodup_cons]; exact ⟨hp, h.2.1⟩
    · intro a ha b hb
      simp only [List.singleton_append, List.mem_cons] at hb
      rcases hb with e | hb
      · rintro rfl; exact hu (e ▸ ha)
      · exact h.2.2 a ha b hb
  | submitted c counter hv hex hb =>
    unfold queued emit
    dsimp only
    unfold pushBounded
    by_cases hl : s.pending.length < maxPending
    · rw [if_pos hl]
      exact nodup_move (by intro u hu; simp [Pending.id] at hu ⊢; exact hu.1) hex h
    · rw [if_neg hl]
      exact h.sublist (sublist_queued (List.eraseP_sublist ..) (List.Sublist.refl _))
  | delivered id named p hp hb hr hc hn hv =>
    exact h.sublist (sublist_queued (List.Sublist.refl _) (removeLast_sublist ..))
  | refused id named p hp hb hr hv =>
    exact h.sublist (sublist_queued (List.Sublist.refl _) (removeLast_sublist ..))
  | challenged id by_ counter p hv hp hself hdup => exact h

/-- Only events with a known signature are queued. -/
def Known (s : State W) : Prop := ∀ id ∈ queued s, (tryFrom id.signature).isSome = true

theorem tryFrom_signature (ty : ValidEvent) : (tryFrom (signature ty)).isSome = true := by
  cases ty <;> decide +kernel

theorem known_of_subset {s s' : State W} (h : Known s) (hs : ∀ id ∈ queued s', id ∈ queued s) : Known s' :=
  fun id hi => h id (hs id hi)

theorem known_view {x : Step W} {s s' : State W} (h : Known s) (v : View handler s x s') : Known s' := by
  cases v with
  | frame s' hu hp _ _ _ _ _ => unfold Known queued; rw [hu, hp]; exact h
  | period p hp => exact h
  | bridge tx acc hne => exact h
  | added ty tx a nonces hf hpr hx hlen h0 =>
    intro id hid
    simp only [queued, emit, List.map_append, List.map_cons, List.map_nil, List.mem_append, List.mem_singleton] at hid
    rcases hid with (hid | rfl) | hid
    · exact h id (by simp only [queued, List.mem_append]; exact .inl hid)
    · exact tryFrom_signature ty
    · exact h id (by simp only [queued, List.mem_append]; exact .inr hid)
  | submitted c counter hv hex hb =>
    apply known_of_subset h
    intro id hid
    simp only [queued, emit, List.mem_append] at hid ⊢
    rcases hid with hid | hid
    · exact .inl (((List.eraseP_sublist ..).map _).subset hid)
    · obtain ⟨p, hp, rfl⟩ := List.mem_map.1 hid
      rcases pushBounded_mem hp with hp | rfl
      · exact .inr (List.mem_map_of_mem hp)
      · obtain ⟨u, hu, hqu⟩ := List.any_eq_true.1 hex
        left
        simp only [Bool.and_eq_true, beq_iff_eq] at hqu
        exact List.mem_map.2 ⟨u, hu, hqu.1⟩
  | delivered id named p hp hb hr hc hn hv =>
    exact known_of_subset h ((sublist_queued (List.Sublist.refl _) (removeLast_sublist ..)).subset)
  | refused id named p hp hb hr hv =>
    exact known_of_subset h ((sublist_queued (List.Sublist.refl _) (removeLast_sublist ..)).subset)
  | challenged id by_ counter p hv hp hself hdup => exact h

/-- Is this log entry the delivery of an event of transaction `h`? -/
def isHandled (h : Nat) : Nat × Obs → Bool
  | (_, .handled e) => e.id.txHash == h
  | _ => false

theorem countP_settle (s : State W) (p : Pending) (id : EventId) (named h : Nat) :
    (settle s p id named).log.countP (isHandled h) = s.log.countP (isHandled h) := by
  unfold settle emit
  dsimp only
  rw [List.countP_append]
  have : List.countP (isHandled h) (List.map (fun e => (s.block, e))
    ([.processed id named ((s.processed id.txHash).isNone && !challengeSuccessful s p.check)] ++
      if challengeSuccessful s p.check = true then [.challengeSucceeded id p.check.result, .offence [p.check.checkedBy]]
      else if s.challenges id = [] then [] else [.offence (s.challenges id)])) = 0 := by
    by_cases h1 : challengeSuccessful s p.check = true
    · rw [if_pos h1]; rfl
    · rw [if_neg h1]
      by_cases h2 : s.challenges id = []
      · rw [if_pos h2]; rfl
      · rw [if_neg h2]; rfl
  rw [this]; rfl

theorem settle_processed_some {s : State W} {p : Pending} {id : EventId} {named : Nat} {h : Nat}
    (hs : (s.processed h).isSome = true) : ((settle s p id named).processed h).isSome = true := by
  unfold settle emit markProcessed
  dsimp only
  split
  · exact hs
  · split
    · exact hs
    · split
      · rw [upd_apply]; split <;> simp [hs]
      · exact hs

/-- A transaction is delivered at most once, and only if recorded as processed. -/
def Once (s : State W) : Prop :=
  ∀ h, s.log.countP (isHandled h) ≤ if (s.processed h).isSome = true then 1 else 0

theorem once_mono {s s' : State W} (h : Once s) (hl : ∀ t, s'.log.countP (isHandled t) = s.log.countP (isHandled t))
    (hp : ∀ t, (s.processed t).isSome = true → (s'.processed t).isSome = true) : Once s' := by
  intro t
  rw [hl t]
  have := h t
  by_cases hs : (s.processed t).isSome = true
  · rw [if_pos hs] at this; rw [if_pos (hp t hs)]; exact this
  · rw [if_neg hs] at this; omega

theorem once_view {x : Step W} {s s' : State W} (hk : Known s) (h : Once s) (v : View handler s x s') : Once s' := by
  cases v with
  | frame s' hu hp hpr _ _ _ _ hl => exact once_mono h (fun t => by rw [hl]) (fun t ht => by rw [hpr]; exact ht)
  | period p hp => exact once_mono h (fun t => by simp [emit, isHandled]) (fun t ht => ht)
  | bridge tx acc hne =>
    refine once_mono h (fun t => rfl) (fun t ht => ?_)
    dsimp only; rw [upd_apply]; split <;> simp [ht]
  | added ty tx a nonces hf hpr hx hlen h0 =>
    exact once_mono h (fun t => by simp [emit, isHandled]) (fun t ht => ht)
  | submitted c counter hv hex hb =>
    exact once_mono h (fun t => by simp [emit, isHandled]) (fun t ht => ht)
  | delivered id named p hp hb hr hc hn hv =>
    obtain ⟨hmem, hid⟩ := lastPending_mem hp
    have hkn : (tryFrom id.signature).isSome = true :=
      hk id (by simp only [queued, List.mem_append]; exact .inr (List.mem_map.2 ⟨p, hmem, hid⟩))
    have hpe : p.check.event.id = id := hid
    have hproc : (deliver handler (settle s p id named) p id).processed = upd s.processed id.txHash (some true) := by
      unfold deliver settle emit markProcessed
      dsimp only
      rw [if_neg (by simp [hr, hc]), if_neg (by simp [hn]), if_pos (by simp [hkn])]
    intro t
    rw [hproc]
    have hcount : (deliver handler (settle s p id named) p id).log.countP (isHandled t) =
        s.log.countP (isHandled t) + if id.txHash = t then 1 else 0 := by
      unfold deliver
      unfold emit
      dsimp only
      rw [List.countP_append, countP_settle]
      congr 1
      by_cases ht : id.txHash = t
      · rw [if_pos ht]
        split <;> simp [isHandled, hpe, ht]
      · rw [if_neg ht]
        split <;> simp [isHandled, hpe, ht]
    rw [hcount]
    have := h t
    by_cases ht : id.txHash = t
    · rw [← ht] at this ⊢
      rw [hn] at this
      simp at this
      simp
      intro a b hab
      simpa using this a b hab
    · rw [if_neg ht, upd_ne _ _ (Ne.symm ht)]
      simpa using this
  | refused id named p hp hb hr hv =>
    refine once_mono h (fun t => ?_) (fun t ht => ?_)
    · unfold emit
      dsimp only
      rw [List.countP_append, countP_settle]
      simp [isHandled]
    · exact settle_processed_some (named := named) ht
  | challenged id by_ counter p hv hp hself hdup =>
    exact once_mono h (fun t => by simp [emit, isHandled]) (fun t ht => ht)

/-- Every pending entry was recorded by a check, whose details are in the log. -/
def Traced (s : State W) : Prop := ∀ p ∈ s.pending, ∃ per,
  (p.block, Obs.validated p.check.event p.check.result p.check.checkedBy p.counter per p.check.minVotes) ∈ s.log ∧
  p.check.readyAfter = p.block + per

theorem traced_mono {s s' : State W} (h : Traced s) (hp : ∀ p ∈ s'.pending, p ∈ s.pending)
    (hl : ∀ x ∈ s.log, x ∈ s'.log) : Traced s' := by
  intro p hm
  obtain ⟨per, h1, h2⟩ := h p (hp p hm)
  exact ⟨per, hl _ h1, h2⟩

theorem mem_emit {s : State W} {es : List Obs} {x : Nat × Obs} (h : x ∈ s.log) : x ∈ (emit s es).log := by
  simp [emit, h]

theorem traced_view {x : Step W} {s s' : State W} (h : Traced s) (v : View handler s x s') : Traced s' := by
  cases v with
  | frame s' hu hp hpr _ _ _ _ hl => exact traced_mono h (fun p hm => hp ▸ hm) (fun x hx => hl ▸ hx)
  | period p hp => exact traced_mono h (fun p hm => hm) (fun x hx => mem_emit hx)
  | bridge tx acc hne => exact traced_mono h (fun p hm => hm) (fun x hx => hx)
  | added ty tx a nonces hf hpr hx hlen h0 => exact traced_mono h (fun p hm => hm) (fun x hx => mem_emit hx)
  | submitted c counter hv hex hb =>
    intro p hm
    rcases pushBounded_mem (show p ∈ pushBounded _ _ _ from hm) with hm | rfl
    · obtain ⟨per, h1, h2⟩ := h p hm
      exact ⟨per, mem_emit h1, h2⟩
    · exact ⟨s.period, by simp [emit], rfl⟩
  | delivered id named p hp hb hr hc hn hv =>
    exact traced_mono h (fun q hm => (removeLast_sublist ..).subset hm) (fun x hx => mem_emit (mem_emit hx))
  | refused id named p hp hb hr hv =>
    exact traced_mono h (fun q hm => (removeLast_sublist ..).subset hm) (fun x hx => mem_emit (mem_emit hx))
  | challenged id by_ counter p hv hp hself hdup =>
    exact traced_mono h (fun p hm => hm) (fun x hx => mem_emit hx)

/-! ### Challengers -/

/-- Effect of one log entry on the set of open challengers of `id`. -/
def openStep (id : EventId) (acc : List Nat) : Nat × Obs → List Nat
  | (_, .challenged i a) => if i = id then acc ++ [a] else acc
  | (_, .accepted i) => if i = id then [] else acc
  | (_, .rejected i _ succ) => if i = id ∧ succ = false then [] else acc
  | _ => acc

/-- Everybody who challenged `id` since its last processing without successful challenge, from the log alone. -/
def openChallengers (log : List (Nat × Obs)) (id : EventId) : List Nat := log.foldl (openStep id) []

theorem open_append (l m : List (Nat × Obs)) (id : EventId) :
    openChallengers (l ++ m) id = m.foldl (openStep id) (openChallengers l id) := by simp [openChallengers]

theorem settle_open (s : State W) (p : Pending) (id x : EventId) (named : Nat) :
    openChallengers (settle s p id named).log x = openChallengers s.log x := by
  unfold settle emit
  dsimp only
  rw [open_append]
  by_cases h1 : challengeSuccessful s p.check = true
  · rw [if_pos h1]; rfl
  · rw [if_neg h1]
    by_cases h2 : s.challenges id = []
    · rw [if_pos h2]; rfl
    · rw [if_neg h2]; rfl

/-- The stored challengers are the open ones, up to the bound of the list. -/
def Chal (s : State W) : Prop := ∀ id, s.challenges id = (openChallengers s.log id).take maxChallenges

theorem take_push {l : List Nat} {n a : Nat} : (l ++ [a]).take n = pushBounded n (l.take n) a := by
  unfold pushBounded
  by_cases h : l.length < n
  · rw [if_pos (by simp; omega), List.take_of_length_le (by simp; omega), List.take_of_length_le (by omega)]
  · rw [if_neg (by simp; omega), List.take_append_of_le_length (by omega)]

theorem chal_view {x : Step W} {s s' : State W} (h : Chal s) (v : View handler s x s') : Chal s' := by
  cases v with
  | frame s' hu hp hpr hc _ _ _ hl => intro id; rw [hc, hl]; exact h id
  | period p hp => intro id; simp only [emit, open_append]; exact h id
  | bridge tx acc hne => exact h
  | added ty tx a nonces hf hpr hx hlen h0 => intro id; simp only [emit, open_append]; exact h id
  | submitted c counter hv hex hb => intro id; simp only [emit, open_append]; exact h id
  | delivered id named p hp hb hr hc hn hv =>
    intro x
    have hl : openChallengers (deliver handler (settle s p id named) p id).log x =
        if id = x then [] else openChallengers s.log x := by
      unfold deliver
      rw [emit]
      dsimp only
      rw [open_append, settle_open]
      split <;> simp [openStep]
    rw [hl]
    have : (deliver handler (settle s p id named) p id).challenges = upd s.challenges id [] := by
      unfold deliver settle emit
      dsimp only
      rw [if_neg (by simp [hc])]
    rw [this, upd_apply]
    by_cases hx : x = id
    · rw [if_pos hx, if_pos hx.symm]; rfl
    · rw [if_neg hx, if_neg (Ne.symm hx)]; exact h x
  | refused id named p hp hb hr hv =>
    intro x
    have hl : openChallengers (emit (settle s p id named) [.rejected id p.check.result (challengeSuccessful s p.check)]).log x =
        if id = x ∧ challengeSuccessful s p.check = false then [] else openChallengers s.log x := by
      unfold emit
      dsimp only
      rw [open_append, settle_open]
      simp [openStep]
    rw [hl]
    show (if challengeSuccessful s p.check = true then s.challenges else upd s.challenges id []) x = _
    by_cases hc : challengeSuccessful s p.check = true
    · rw [if_pos hc, if_neg (by simp [hc])]; exact h x
    · rw [if_neg hc, upd_apply]
      by_cases hx : x = id
      · rw [if_pos hx, if_pos ⟨hx.symm, by simpa using hc⟩]; rfl
      · rw [if_neg hx, if_neg (fun e => hx e.1.symm)]; exact h x
  | challenged id by_ counter p hv hp hself hdup =>
    intro x
    simp only [emit, open_append, List.map_cons, List.map_nil, List.foldl_cons, List.foldl_nil, openStep]
    rw [upd_apply]
    by_cases hx : x = id
    · rw [if_pos hx, if_pos hx.symm, take_push, hx, h id]
    · rw [if_neg hx, if_neg (Ne.symm hx)]; exact h x

/-- Challengers are distinct. -/
def Distinct (s : State W) : Prop := ∀ id, (s.challenges id).Nodup ∧ (s.challenges id).length ≤ maxChallenges

theorem distinct_view {x : Step W} {s s' : State W} (h : Distinct s) (v : View handler s x s') : Distinct s' := by
  have upd_nil : ∀ id x, (upd s.challenges id [] x).Nodup ∧ (upd s.challenges id [] x).length ≤ maxChallenges := by
    intro id x
    rw [upd_apply]
    by_cases hx : x = id
    · rw [if_pos hx]; simp
    · rw [if_neg hx]; exact h x
  cases v with
  | frame s' hu hp hpr hc _ _ _ hl => intro id; rw [hc]; exact h id
  | period p hp => exact h
  | bridge tx acc hne => exact h
  | added ty tx a nonces hf hpr hx hlen h0 => exact h
  | submitted c counter hv hex hb => exact h
  | delivered id named p hp hb hr hc hn hv =>
    intro x
    show ((if challengeSuccessful s p.check = true then s.challenges else upd s.challenges id []) x).Nodup ∧ _
    rw [show (deliver handler (settle s p id named) p id).challenges =
      (if challengeSuccessful s p.check = true then s.challenges else upd s.challenges id []) from rfl]
    split
    · exact h x
    · exact upd_nil id x
  | refused id named p hp hb hr hv =>
    intro x
    rw [show (emit (settle s p id named) [.rejected id p.check.result (challengeSuccessful s p.check)]).challenges =
      (if challengeSuccessful s p.check = true then s.challenges else upd s.challenges id []) from rfl]
    split
    · exact h x
    · exact upd_nil id x
  | challenged id by_ counter p hv hp hself hdup =>
    intro x
    show (upd s.challenges id (pushBounded maxChallenges (s.challenges id) by_) x).Nodup ∧ _
    rw [show (emit { s with challenges := upd s.challenges id (pushBounded maxChallenges (s.challenges id) by_) }
            [.challenged id by_]).challenges = upd s.challenges id (pushBounded maxChallenges (s.challenges id) by_) from rfl]
    rw [upd_apply]
    by_cases hx : x = id
    · rw [if_pos hx]
      refine ⟨?_, pushBounded_length (h id).2⟩
      unfold pushBounded
      split
      · rw [List.nodup_append]
        refine ⟨(h id).1, by simp, ?_⟩
        intro a ha b hb
        simp only [List.mem_singleton] at hb
        rintro rfl
        exact hdup (hb ▸ ha)
      · exact (h id).1
    · rw [if_neg hx]; exact h x

/-- Is this log entry a successful challenge of `id`? -/
def isSucceeded (id : EventId) : Nat × Obs → Bool
  | (_, .challengeSucceeded i _) => i == id
  | _ => false

/-- As long as no challenge of `id` has succeeded: no challengers without a pending check, and never its checker. -/
def FirstRound (s : State W) : Prop := ∀ id, s.log.any (isSucceeded id) = false →
  (id ∉ s.pending.map Pending.id → s.challenges id = []) ∧
  (∀ p ∈ s.pending, p.id = id → p.check.checkedBy ∉ s.challenges id)

theorem settle_succeeded {s : State W} {p : Pending} {id : EventId} {named : Nat} {x : EventId}
    (h : (settle s p id named).log.any (isSucceeded x) = false) :
    s.log.any (isSucceeded x) = false ∧ (x = id → challengeSuccessful s p.check = false) := by
  unfold settle emit at h
  dsimp only at h
  rw [List.any_append, Bool.or_eq_false_iff] at h
  refine ⟨h.1, ?_⟩
  rintro rfl
  by_contra hc
  rw [if_pos (by simpa using hc)] at h
  simp [isSucceeded] at h

theorem any_emit {s : State W} {es : List Obs} {f : Nat × Obs → Bool} (h : (emit s es).log.any f = false) :
    s.log.any f = false := by
  unfold emit at h
  dsimp only at h
  rw [List.any_append, Bool.or_eq_false_iff] at h
  exact h.1

theorem firstRound_settle {s s' : State W} {p : Pending} {id : EventId} {named : Nat} (hq : (queued s).Nodup)
    (h : FirstRound s)
    (hl : ∀ x, s'.log.any (isSucceeded x) = false → (settle s p id named).log.any (isSucceeded x) = false)
    (hp : s'.pending = removeLast s.pending id)
    (hc : s'.challenges = if challengeSuccessful s p.check = true then s.challenges else upd s.challenges id []) :
    FirstRound s' := by
  intro x hx
  obtain ⟨h1, h2⟩ := settle_succeeded (hl x hx)
  obtain ⟨ha, hb⟩ := h x h1
  have hnd : (s.pending.map Pending.id).Nodup := (List.nodup_append.1 hq).2.1
  rw [hp, hc]
  by_cases hxi : x = id
  · subst hxi
    rw [if_neg (by simp [h2 rfl])]
    simp only [upd_same, List.not_mem_nil, not_false_eq_true, implies_true, and_self]
  · have hcx : (if challengeSuccessful s p.check = true then s.challenges else upd s.challenges id []) x = s.challenges x := by
      split
      · rfl
      · exact upd_ne _ _ hxi
    rw [hcx]
    refine ⟨fun hn => ha (fun hm => hn ?_), fun q hm e => hb q ((removeLast_sublist ..).subset hm) e⟩
    obtain ⟨q, hq1, hq2⟩ := List.mem_map.1 hm
    exact List.mem_map.2 ⟨q, removeLast_other hq1 (by rw [hq2]; exact hxi), hq2⟩

theorem firstRound_view {x : Step W} {s s' : State W} (hq : (queued s).Nodup) (h : FirstRound s)
    (v : View handler s x s') : FirstRound s' := by
  cases v with
  | frame s' hu hp hpr hc _ _ _ hl => intro id hid; rw [hc, hp]; exact h id (hl ▸ hid)
  | period p hp => intro id hid; exact h id (any_emit hid)
  | bridge tx acc hne => exact h
  | added ty tx a nonces hf hpr hx hlen h0 => intro id hid; exact h id (any_emit hid)
  | submitted c counter hv hex hb =>
    intro x hx
    obtain ⟨ha, hb'⟩ := h x (any_emit hx)
    have hnp : c.event.id ∉ s.pending.map Pending.id := by
      intro hm
      obtain ⟨u, hu, hqu⟩ := List.any_eq_true.1 hex
      simp only [Bool.and_eq_true, beq_iff_eq] at hqu
      exact (List.nodup_append.1 hq).2.2 _ (List.mem_map_of_mem hu) _ (hqu.1 ▸ hm) rfl
    refine ⟨fun hn => ha (fun hm => hn ?_), ?_⟩
    · obtain ⟨q, hq1, hq2⟩ := List.mem_map.1 hm
      exact List.mem_map.2 ⟨q, mem_pushBounded_old hq1, hq2⟩
    · intro q hm e
      rcases pushBounded_mem (show q ∈ pushBounded _ _ _ from hm) with hm | rfl
      · exact hb' q hm e
      · have he : x = c.event.id := e.symm
        show _ ∉ s.challenges x
        rw [ha (he ▸ hnp)]; simp
  | delivered id named p hp hb hr hc hn hv => exact firstRound_settle hq h (fun x hx => any_emit hx) rfl rfl
  | refused id named p hp hb hr hv => exact firstRound_settle hq h (fun x hx => any_emit hx) rfl rfl
  | challenged id by_ counter p hv hp hself hdup =>
    intro x hx
    obtain ⟨ha, hb⟩ := h x (any_emit hx)
    have hpm : p ∈ s.pending ∧ p.id = id := by
      refine ⟨by simpa using List.mem_of_find?_eq_some hp, ?_⟩
      have := List.find?_some hp
      simp only [Bool.and_eq_true, beq_iff_eq] at this
      exact this.1
    show (x ∉ s.pending.map Pending.id → upd s.challenges id _ x = []) ∧
      ∀ q ∈ s.pending, q.id = x → q.check.checkedBy ∉ upd s.challenges id _ x
    by_cases hxi : x = id
    · subst hxi
      rw [upd_same]
      refine ⟨fun hn => absurd (List.mem_map.2 ⟨p, hpm⟩) hn, fun q hqm e hmem => ?_⟩
      have hqp : q = p := by
        have hnd : (s.pending.map Pending.id).Nodup := (List.nodup_append.1 hq).2.1
        exact List.inj_on_of_nodup_map hnd hqm hpm.1 (e.trans hpm.2.symm)
      rcases pushBounded_mem hmem with hm | hm
      · exact hb q hqm e hm
      · exact hself (hqp ▸ hm)
    · rw [upd_ne _ _ hxi]; exact ⟨ha, hb⟩

/-! ### Ingress counters -/

/-- Counters handed out so far: the `added` entries of the log. -/
def addedCounters (log : List (Nat × Obs)) : List Nat :=
  log.filterMap (fun x => match x.2 with | .added _ k _ => some k | _ => none)

theorem added_emit (s : State W) (es : List Obs) :
    addedCounters (emit s es).log = addedCounters s.log ++ addedCounters (es.map (fun e => (s.block, e))) := by
  simp [emit, addedCounters]

theorem added_settle (s : State W) (p : Pending) (id : EventId) (named : Nat) :
    addedCounters (settle s p id named).log = addedCounters s.log := by
  unfold settle
  rw [added_emit]
  dsimp only
  by_cases h1 : challengeSuccessful s p.check = true
  · rw [if_pos h1]; simp [addedCounters]
  · rw [if_neg h1]
    by_cases h2 : s.challenges id = []
    · rw [if_pos h2]; simp [addedCounters]
    · rw [if_neg h2]; simp [addedCounters]

/-- The ingress counter after a run is the initial one plus the number of accepted additions, and the counters handed
out are the consecutive numbers after the initial one; provided the `u64` did not overflow. -/
theorem counters_step {x : Step W} {s s' : State W} {k0 : Nat} (hb : s.ingress + 1 < pow64)
    (h : s.ingress = k0 + (addedCounters s.log).length ∧ addedCounters s.log = List.range' (k0 + 1) (addedCounters s.log).length)
    (v : View handler s x s') :
    s'.ingress ≤ s.ingress + 1 ∧ s'.ingress = k0 + (addedCounters s'.log).length ∧
      addedCounters s'.log = List.range' (k0 + 1) (addedCounters s'.log).length := by
  cases v with
  | frame s' hu hp hpr hc hq hi hf hl => rw [hi, hl]; exact ⟨by omega, h⟩
  | period p hp =>
    rw [added_emit]
    simp only [addedCounters, List.map_cons, List.map_nil, List.filterMap_cons, List.filterMap_nil, List.append_nil] at h ⊢
    exact ⟨by show s.ingress ≤ _; omega, h⟩
  | bridge tx acc hne => exact ⟨by show s.ingress ≤ _; omega, h⟩
  | added ty tx a nonces hf hpr hx hlen h0 =>
    rw [added_emit]
    have hw : wrapInc64 s.ingress = s.ingress + 1 := by unfold wrapInc64; exact Nat.mod_eq_of_lt hb
    have hnew : addedCounters (List.map (fun e => (s.block, e)) [Obs.added ⟨signature ty, tx⟩ (wrapInc64 s.ingress) a]) =
        [s.ingress + 1] := by simp [addedCounters, hw]
    dsimp only
    rw [hnew]
    simp only [List.length_append, List.length_singleton]
    show wrapInc64 s.ingress ≤ _ ∧ wrapInc64 s.ingress = _ ∧ _
    rw [hw]
    refine ⟨Nat.le_refl _, by rw [h.1]; omega, ?_⟩
    rw [List.range'_concat, ← h.2]
    congr 2
    omega
  | submitted c counter hv hex hb =>
    rw [added_emit]
    simp only [addedCounters, List.map_cons, List.map_nil, List.filterMap_cons, List.filterMap_nil, List.append_nil] at h ⊢
    exact ⟨by show s.ingress ≤ _; omega, h⟩
  | delivered id named p hp hb hr hc hn hv =>
    unfold deliver
    rw [added_emit]
    dsimp only
    rw [added_settle]
    have : addedCounters (List.map (fun e => ((settle s p id named).block, e)) [Obs.handled p.check.event,
     if (handler p.check.event (settle s p id named).world).2 = true then .accepted id else .rejected id p.check.result false]) = [] := by
      split <;> rfl
    rw [this, List.append_nil]
    exact ⟨by show s.ingress ≤ _; omega, h⟩
  | refused id named p hp hb hr hv =>
    rw [added_emit, added_settle]
    simp only [addedCounters, List.map_cons, List.map_nil, List.filterMap_cons, List.filterMap_nil, List.append_nil] at h ⊢
    exact ⟨by show s.ingress ≤ _; omega, h⟩
  | challenged id by_ counter p hv hp hself hdup =>
    rw [added_emit]
    simp only [addedCounters, List.map_cons, List.map_nil, List.filterMap_cons, List.filterMap_nil, List.append_nil] at h ⊢
    exact ⟨by show s.ingress ≤ _; omega, h⟩

/-- Counters of the queued entries are distinct and already handed out. -/
def Counters (s : State W) : Prop :=
  (s.unchecked.map Unchecked.counter ++ s.pending.map Pending.counter).Nodup ∧
  ∀ k ∈ s.unchecked.map Unchecked.counter ++ s.pending.map Pending.counter, k ≤ s.ingress

theorem counters_sub {s s' : State W} (h : Counters s) (hu : s'.unchecked.Sublist s.unchecked)
    (hp : s'.pending.Sublist s.pending) (hi : s.ingress ≤ s'.ingress) : Counters s' := by
  have hs := (hu.map Unchecked.counter).append (hp.map Pending.counter)
  exact ⟨h.1.sublist hs, fun k hk => Nat.le_trans (h.2 k (hs.subset hk)) hi⟩

theorem counters_view {x : Step W} {s s' : State W} (hb : s.ingress + 1 < pow64) (h : Counters s)
    (v : View handler s x s') : Counters s' := by
  cases v with
  | frame s' hu hp hpr hc hq hi hf hl => unfold Counters; rw [hu, hp, hi]; exact h
  | period p hp => exact h
  | bridge tx acc hne => exact h
  | added ty tx a nonces hf hpr hx hlen h0 =>
    have hw : wrapInc64 s.ingress = s.ingress + 1 := by unfold wrapInc64; exact Nat.mod_eq_of_lt hb
    unfold Counters emit
    simp only [List.map_append, List.map_cons, List.map_nil, hw]
    have perm : (s.unchecked.map Unchecked.counter ++ [s.ingress + 1] ++ s.pending.map Pending.counter).Perm
        ((s.ingress + 1) :: (s.unchecked.map Unchecked.counter ++ s.pending.map Pending.counter)) := by
      rw [List.append_assoc]; exact List.perm_middle
    refine ⟨perm.nodup_iff.2 (List.nodup_cons.2 ⟨fun hm => ?_, h.1⟩), fun k hk => ?_⟩
    · have := h.2 _ hm; omega
    · rcases List.mem_cons.1 (perm.mem_iff.1 hk) with rfl | hk
      · exact Nat.le_refl _
      · have := h.2 _ hk; omega
  | submitted c counter hv hex hb =>
    unfold Counters emit
    dsimp only
    refine ⟨?_, fun k hk => ?_⟩
    · unfold pushBounded
      by_cases hl : s.pending.length < maxPending
      · rw [if_pos hl]
        exact nodup_move (by intro u hu; simp only [Bool.and_eq_true, beq_iff_eq] at hu; exact hu.2) hex h.1
      · rw [if_neg hl]
        exact h.1.sublist (((List.eraseP_sublist ..).map _).append (List.Sublist.refl _))
    · rcases List.mem_append.1 hk with hk | hk
      · exact h.2 k (List.mem_append.2 (.inl (((List.eraseP_sublist ..).map _).subset hk)))
      · obtain ⟨p, hp, rfl⟩ := List.mem_map.1 hk
        rcases pushBounded_mem hp with hp | rfl
        · exact h.2 _ (List.mem_append.2 (.inr (List.mem_map_of_mem hp)))
        · obtain ⟨u, hu, hqu⟩ := List.any_eq_true.1 hex
          simp only [Bool.and_eq_true, beq_iff_eq] at hqu
          exact h.2 _ (List.mem_append.2 (.inl (List.mem_map.2 ⟨u, hu, hqu.2⟩)))
  | delivered id named p hp hb hr hc hn hv =>
    exact counters_sub h (List.Sublist.refl _) (removeLast_sublist ..) (Nat.le_refl _)
  | refused id named p hp hb hr hv =>
    exact counters_sub h (List.Sublist.refl _) (removeLast_sublist ..) (Nat.le_refl _)
  | challenged id by_ counter p hv hp hself hdup => exact h

theorem genesisQueue_counters (k : Nat) (l : List Nat) :
    (genesisQueue k l).map Unchecked.counter = List.range' (k + 1) l.length := by
  induction l generalizing k with
  | nil => rfl
  | cons a l ih => simp [genesisQueue, ih, List.range'_succ]

end Verif.EthEvents
