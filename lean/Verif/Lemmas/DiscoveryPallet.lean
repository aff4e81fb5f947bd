import Verif.Props.EthBridgeApply

/-!
# Lemmas about the bridge pallet used by the event discovery properties
-/

namespace Verif.EthBridge

open Verif.Events

variable {W : Type} (handler : W → EthEvent → W × Bool)

/-- What processing one discovered event does to the log and to the records. -/
theorem processDiscovered_effect (n : Nat) (a : Active) (s : State W) (d : Discovered) :
    ∃ new, (processDiscovered handler n a s d).log = s.log ++ new ∧
      (∀ e, Obs.handled e ∈ new → d.event = e ∧ d.block ≤ a.range.endBlock ∧ ∃ k, tryFrom e.signature = some k ∧ k ∈ a.filter) ∧
      (∀ h, ((processDiscovered handler n a s d).processed h).isSome = true → (s.processed h).isSome = true ∨ h ∈ handledHashes new) := by
  unfold processDiscovered
  cases hk : tryFrom d.event.signature with
  | none => exact ⟨[], by simp, by simp, fun h hh => .inl hh⟩
  | some k =>
    dsimp only
    by_cases h1 : a.filter.contains k = true
    · rw [if_pos h1]
      by_cases h2 : d.block > a.range.endBlock
      · rw [if_pos h2]
        exact ⟨[.rejected d.event], rfl, by simp, fun h hh => .inl hh⟩
      · rw [if_neg h2]
        cases h3 : processEvent handler s n d.event with
        | none => exact ⟨[.rejected d.event], rfl, by simp, fun h hh => .inl hh⟩
        | some s' =>
          obtain ⟨_, hl⟩ := processEvent_eq handler h3
          refine ⟨_, hl, ?_, ?_⟩
          · intro e he
            have he' : e = d.event := by
              cases hb : (handler s.world d.event).2 <;> simpa [hb] using he
            subst he'
            exact ⟨rfl, by omega, k, hk, List.contains_iff_mem.1 h1⟩
          · intro h hh
            unfold processEvent at h3
            by_cases h4 : processedEventExists s n d.event = true
            · simp [h4] at h3
            · simp only [h4, if_false, Bool.false_eq_true] at h3
              cases h5 : addProcessedEventOn s n d.event true with
              | none => simp [h5] at h3
              | some s1 =>
                simp only [h5, Option.some.injEq] at h3
                have h6 : addProcessedEvent s d.event true = some s1 := by
                  unfold addProcessedEventOn at h5
                  by_cases hc : (s.instanceValid && s.network == n) = true
                  · simpa [hc] using h5
                  · simp [hc] at h5
                obtain ⟨id, rfl⟩ := addProcessedEvent_spec h6
                subst h3
                by_cases he : h = d.event.txHash
                · right; subst he; simp [handledHashes]
                · left; simpa [upd_apply, he] using hh
    · rw [if_neg h1]; exact ⟨[], by simp, by simp, fun h hh => .inl hh⟩

theorem processFold_effect (n : Nat) (a : Active) (evs : List Discovered) (s : State W) :
    ∃ new, (evs.foldl (processDiscovered handler n a) s).log = s.log ++ new ∧
      (∀ e, Obs.handled e ∈ new → ∃ d ∈ evs, d.event = e ∧ d.block ≤ a.range.endBlock ∧
        ∃ k, tryFrom e.signature = some k ∧ k ∈ a.filter) ∧
      (∀ h, ((evs.foldl (processDiscovered handler n a) s).processed h).isSome = true →
        (s.processed h).isSome = true ∨ h ∈ handledHashes new) := by
  induction evs generalizing s with
  | nil => exact ⟨[], by simp, by simp, fun h hh => .inl hh⟩
  | cons d evs ih =>
    obtain ⟨n1, l1, e1, p1⟩ := processDiscovered_effect handler n a s d
    obtain ⟨n2, l2, e2, p2⟩ := ih (processDiscovered handler n a s d)
    refine ⟨n1 ++ n2, by rw [List.foldl_cons, l2, l1, List.append_assoc], ?_, ?_⟩
    · intro e he
      rcases List.mem_append.1 he with he | he
      · exact ⟨d, by simp, e1 e he⟩
      · obtain ⟨d', hd', r⟩ := e2 e he
        exact ⟨d', List.mem_cons_of_mem _ hd', r⟩
    · intro h hh
      rw [List.foldl_cons] at hh
      rw [handledHashes_append, List.mem_append]
      rcases p2 h hh with hh | hh
      · rcases p1 h hh with hh | hh
        · exact .inl hh
        · exact .inr (.inl hh)
      · exact .inr (.inr hh)

theorem advancePartition_processed (s : State W) (a : Active) (p : Partition) :
    (advancePartition s a p).processed = s.processed := by
  unfold advancePartition; split <;> rfl

/-- The calls that record a transaction as processed without the event being discovered. -/
def RecordsElsewhere (h : Nat) : Step W → Prop
  | .addProcessed e _ => e.txHash = h
  | .migrate _ batch => ∃ e ∈ batch, e.1.txHash = h
  | _ => False

theorem migrate_processed (n : Nat) (batch : List (EthEvent × Bool)) (s : State W) (h : Nat)
    (hh : ((migrateBatch s n batch).processed h).isSome = true) :
    (s.processed h).isSome = true ∨ ∃ e ∈ batch, e.1.txHash = h := by
  unfold migrateBatch at hh
  induction batch generalizing s with
  | nil => exact .inl hh
  | cons e batch ih =>
    rw [List.foldl_cons] at hh
    rcases ih _ hh with hh | ⟨e', he', r⟩
    · cases h2 : addProcessedEventOn s n e.1 e.2 with
      | none => rw [h2] at hh; exact .inl hh
      | some s1 =>
        rw [h2, Option.getD_some] at hh
        have h6 : addProcessedEvent s e.1 e.2 = some s1 := by
          unfold addProcessedEventOn at h2
          by_cases hc : (s.instanceValid && s.network == n) = true
          · simpa [hc] using h2
          · simp [hc] at h2
        obtain ⟨id, rfl⟩ := addProcessedEvent_spec h6
        by_cases he : h = e.1.txHash
        · exact .inr ⟨e, by simp, he.symm⟩
        · left; simpa [upd_apply, he] using hh
    · exact .inr ⟨e', List.mem_cons_of_mem _ he', r⟩

/-- The effect of an approving vote, with the processed events. -/
theorem submitEvents_effect {s : State W} {a : Nat} {p : Partition} (hr : (submitEvents handler s a p).2 = none) :
    ∃ act new, s.active = some act ∧ (submitEvents handler s a p).1.log = s.log ++ new ∧
      (∀ e, Obs.handled e ∈ new → p ∈ approvedOf new ∧ ∃ d ∈ p.events, d.event = e ∧ d.block ≤ act.range.endBlock ∧
        ∃ k, tryFrom e.signature = some k ∧ k ∈ act.filter) ∧
      (∀ h, ((submitEvents handler s a p).1.processed h).isSome = true → (s.processed h).isSome = true ∨ h ∈ handledHashes new) := by
  obtain ⟨act, vs, h1, h2, h3, h4, h5, h6, h7⟩ := submitEvents_ok handler hr
  rcases h7 with ⟨hq, he⟩ | ⟨hq, he⟩
  · rw [he]
    exact ⟨act, [.eventVote a p], h2, rfl, by simp, fun h hh => .inl hh⟩
  · rw [he]
    obtain ⟨-, hadv, -⟩ := advancePartition_world (processPartition handler
      { s with log := s.log ++ [.eventVote a p] ++ [.approved p] } s.network act p) act p
    rw [hadv, advancePartition_processed]
    obtain ⟨n1, l1, o1, p1⟩ := processFold_effect handler s.network act p.events
      { s with log := s.log ++ [.eventVote a p] ++ [.approved p], votes := s.votes.filter (fun e => e.1 ≠ p) }
    refine ⟨act, [.eventVote a p, .approved p] ++ n1, h2, ?_, ?_, ?_⟩
    · refine l1.trans ?_; simp
    · intro e hm
      have hm' : Obs.handled e ∈ n1 := by simpa using hm
      exact ⟨by simp [approvedOf], o1 e hm'⟩
    · intro h hh
      rw [handledHashes_append]
      rcases p1 h hh with hh | hh
      · exact .inl hh
      · exact .inr (List.mem_append_right _ hh)

/-- **Where handled events come from**: the step approves a partition that contains the event, in a block not after the end of the
active range and of a kind in the active filter. -/
theorem handled_origin (s : State W) (op : Step W) (e : EthEvent) (new : List Obs)
    (hl : (step handler s op).log = s.log ++ new) (he : Obs.handled e ∈ new) :
    ∃ act p d, s.active = some act ∧ p ∈ approvedOf new ∧ d ∈ p.events ∧ d.event = e ∧ d.block ≤ act.range.endBlock ∧
      ∃ k, tryFrom e.signature = some k ∧ k ∈ act.filter := by
  obtain ⟨q, hq, -⟩ := C13_events_only_from_approved_partitions handler s op e new hl he
  have quiet : ∀ op, (step handler s op).log = s.log ++ new → View handler s op (step handler s op) →
      (∀ a p, op ≠ .submitEvents a p) → False := by
    intro op hl hv hn
    generalize step handler s op = s' at hv hl
    cases hv with
    | vote a p => exact hn _ _ rfl
    | approve a p => exact hn _ _ rfl
    | block a l b vs =>
      have : new = [.blockVote a b] := (List.append_cancel_left hl).symm
      subst this; simp at he
    | select a l b vs r =>
      have : new = [.blockVote a b, .rangeSelected r] := by
        simp only [List.append_assoc] at hl
        exact (List.append_cancel_left hl).symm
      subst this; simp at he
    | quiet op s' hlog =>
      have : new = [] := by rw [hlog] at hl; simpa using hl
      subst this; simp at he
  cases op with
  | submitEvents a p =>
    simp only [step] at hl
    by_cases ha : isAuthor s a = true
    · simp only [ha, if_true, transactional] at hl
      cases hr : (submitEvents handler s a p).2 with
      | some er =>
        simp only [hr, Option.isSome_some, if_true] at hl
        have : new = [] := by simpa using hl
        subst this; simp at he
      | none =>
        simp only [hr, Option.isSome_none, Bool.false_eq_true, if_false] at hl
        obtain ⟨act, new', h1, h2, h3, -⟩ := submitEvents_effect handler hr
        have : new = new' := List.append_cancel_left (hl.symm.trans h2)
        subst this
        obtain ⟨h4, d, h5, h6, h7, h8⟩ := h3 e he
        exact ⟨act, p, d, h1, h4, h5, h6, h7, h8⟩
    · simp only [ha, Bool.false_eq_true, if_false] at hl
      have : new = [] := by simpa using hl
      subst this; simp at he
  | submitBlock a l => exact (quiet _ hl (step_view handler s _) (by simp)).elim
  | admin k c => exact (quiet _ hl (step_view handler s _) (by simp)).elim
  | migrate n b => exact (quiet _ hl (step_view handler s _) (by simp)).elim
  | addProcessed e' b => exact (quiet _ hl (step_view handler s _) (by simp)).elim
  | newAuthors b => exact (quiet _ hl (step_view handler s _) (by simp)).elim
  | external b => exact (quiet _ hl (step_view handler s _) (by simp)).elim

/-- **Where records come from.** -/
theorem processed_origin (s : State W) (op : Step W) (h : Nat) (hh : ((step handler s op).processed h).isSome = true) :
    (s.processed h).isSome = true ∨ (∃ new, (step handler s op).log = s.log ++ new ∧ h ∈ handledHashes new) ∨ RecordsElsewhere h op := by
  cases op with
  | submitEvents a p =>
    simp only [step] at hh ⊢
    by_cases ha : isAuthor s a = true
    · simp only [ha, if_true, transactional] at hh ⊢
      cases hr : (submitEvents handler s a p).2 with
      | some er => simp only [hr, Option.isSome_some, if_true] at hh; exact .inl hh
      | none =>
        simp only [hr, Option.isSome_none, Bool.false_eq_true, if_false] at hh ⊢
        obtain ⟨act, new', h1, h2, -, h3⟩ := submitEvents_effect handler hr
        rcases h3 h hh with h3 | h3
        · exact .inl h3
        · exact .inr (.inl ⟨new', h2, h3⟩)
    · simp only [ha, Bool.false_eq_true, if_false] at hh; exact .inl hh
  | submitBlock a l =>
    left
    simp only [step] at hh
    by_cases ha : isAuthor s a = true
    · simp only [ha, if_true, transactional] at hh
      cases hr : (submitBlock s a l).2 with
      | some er => simp only [hr, Option.isSome_some, if_true] at hh; exact hh
      | none =>
        simp only [hr, Option.isSome_none, Bool.false_eq_true, if_false] at hh
        obtain ⟨b, vs, -, -, -, -, -, h7⟩ := submitBlock_ok hr
        rcases h7 with ⟨-, he⟩ | ⟨-, r, -, he⟩ <;> rw [he] at hh <;> exact hh
    · simp only [ha, Bool.false_eq_true, if_false] at hh; exact hh
  | admin k c =>
    left
    simp only [step, transactional] at hh
    cases hr : (admin s k c).2 with
    | some er => simp only [hr, Option.isSome_some, if_true] at hh; exact hh
    | none =>
      simp only [hr, Option.isSome_none, Bool.false_eq_true, if_false] at hh
      rw [(admin_ok hr).1] at hh; exact hh
  | migrate n b =>
    rcases migrate_processed n b s h hh with hh | hh
    · exact .inl hh
    · exact .inr (.inr hh)
  | addProcessed e b =>
    simp only [step] at hh
    cases h2 : addProcessedEvent s e b with
    | none => rw [h2] at hh; exact .inl hh
    | some s1 =>
      rw [h2, Option.getD_some] at hh
      obtain ⟨id, rfl⟩ := addProcessedEvent_spec h2
      by_cases he : h = e.txHash
      · exact .inr (.inr he.symm)
      · left; simpa [upd_apply, he] using hh
  | newAuthors b => exact .inl hh
  | external b => exact .inl hh

theorem run_processed_origin (s : State W) (steps : List (Step W)) (h : Nat) (hh : ((run handler s steps).processed h).isSome = true) :
    (s.processed h).isSome = true ∨ (∃ new, (run handler s steps).log = s.log ++ new ∧ h ∈ handledHashes new) ∨
      ∃ op ∈ steps, RecordsElsewhere h op := by
  induction steps using List.reverseRecOn with
  | nil => exact .inl hh
  | append_singleton steps op ih =>
    rw [run_snoc] at hh ⊢
    rcases processed_origin handler _ op h hh with hh | ⟨new, h1, h2⟩ | hh
    · rcases ih hh with hh | ⟨new, h1, h2⟩ | ⟨o, ho, hh⟩
      · exact .inl hh
      · right; left
        obtain ⟨n2, hl, -⟩ := step_grow handler (run handler s steps) op
        refine ⟨new ++ n2, by rw [hl, h1, List.append_assoc], ?_⟩
        rw [handledHashes_append]; exact List.mem_append_left _ h2
      · exact .inr (.inr ⟨o, by simp [ho], hh⟩)
    · right; left
      obtain ⟨n2, hl, -⟩ := run_grow handler s steps
      refine ⟨n2 ++ new, by rw [h1, hl, List.append_assoc], ?_⟩
      rw [handledHashes_append]; exact List.mem_append_right _ h2
    · exact .inr (.inr ⟨op, by simp, hh⟩)

/-! ### The active range only moves forward -/

/-- `b` is the active range `a` itself (possibly at a later partition) or a later one. -/
def Later (a b : Active) : Prop :=
  b.range.length = a.range.length ∧ (b.range.start < maxU32 → a.range.start ≤ b.range.start ∧
    (0 < a.range.length → b.range.start = a.range.start →
      b.range = a.range ∧ b.filter = a.filter ∧ b.additional = a.additional ∧ a.partition ≤ b.partition))

theorem Later.refl (a : Active) : Later a a := ⟨rfl, fun _ => ⟨Nat.le_refl _, fun _ _ => ⟨rfl, rfl, rfl, Nat.le_refl _⟩⟩⟩

theorem Later.trans {a b c : Active} (h1 : Later a b) (h2 : Later b c) : Later a c := by
  obtain ⟨l1, e1⟩ := h1
  obtain ⟨l2, e2⟩ := h2
  refine ⟨l2.trans l1, fun hm => ?_⟩
  obtain ⟨s2, e2⟩ := e2 hm
  obtain ⟨s1, e1⟩ := e1 (by omega)
  refine ⟨Nat.le_trans s1 s2, fun hl he => ?_⟩
  have hb : b.range.start = a.range.start := by omega
  obtain ⟨r2, f2, x2, p2⟩ := e2 (by omega) (by omega)
  obtain ⟨r1, f1, x1, p1⟩ := e1 hl hb
  exact ⟨r2.trans r1, f2.trans f1, x2.trans x1, by omega⟩

theorem step_later (s : State W) (op : Step W) (a : Active) (ha : s.active = some a) (hp : a.partition ≤ maxU16) :
    ∃ b, (step handler s op).active = some b ∧ Later a b ∧ b.partition ≤ maxU16 := by
  have hv := step_view handler s op
  generalize step handler s op = s' at hv
  cases hv with
  | vote => exact ⟨a, ha, .refl a, hp⟩
  | approve x p act vs s' hauth hok hact hr hn hv hi hq hvotes hauths hsub hact' =>
    rw [ha] at hact
    cases hact
    refine ⟨_, hact', ?_, ?_⟩
    · cases p.isLast with
      | true =>
        simp only [if_true]
        refine ⟨rfl, fun hm => ⟨?_, ?_⟩⟩
        · simp only [Range.next] at hm ⊢; omega
        · intro h1 h3
          simp only [Range.next] at hm h3
          omega
      | false =>
        simp only [Bool.false_eq_true, if_false]
        refine ⟨rfl, fun _ => ⟨Nat.le_refl _, fun _ _ => ⟨rfl, rfl, rfl, ?_⟩⟩⟩
        dsimp only
        omega
    · cases p.isLast <;> simp <;> omega
  | block x l b vs hauth hact => rw [ha] at hact; cases hact
  | select x l b vs r hauth hact => rw [ha] at hact; cases hact
  | quiet op s' hlog hact => exact ⟨a, by rw [hact, ha], .refl a, hp⟩

theorem run_later (s : State W) (steps : List (Step W)) (a : Active) (ha : s.active = some a) (hp : a.partition ≤ maxU16) :
    ∃ b, (run handler s steps).active = some b ∧ Later a b ∧ b.partition ≤ maxU16 := by
  induction steps using List.reverseRecOn with
  | nil => exact ⟨a, ha, .refl a, hp⟩
  | append_singleton steps op ih =>
    obtain ⟨b, h1, h2, h3⟩ := ih
    rw [run_snoc]
    obtain ⟨c, h4, h5, h6⟩ := step_later handler _ op b h1 h3
    exact ⟨c, h4, h2.trans h5, h6⟩

theorem partition_bound (w : W) (authors : List Nat) (size : Nat) (steps : List (Step W)) (a : Active)
    (ha : (run handler (initial w authors size) steps).active = some a) : a.partition ≤ maxU16 := by
  induction steps using List.reverseRecOn generalizing a with
  | nil => simp [run, initial] at ha
  | append_singleton steps op ih =>
    rw [run_snoc] at ha
    cases hb : (run handler (initial w authors size) steps).active with
    | some b =>
      obtain ⟨c, h1, -, h3⟩ := step_later handler _ op b hb (ih b hb)
      rw [h1] at ha; cases ha; exact h3
    | none =>
      have hv := step_view handler (run handler (initial w authors size) steps) op
      generalize run handler (initial w authors size) steps = s at hv ha hb
      generalize step handler s op = s' at hv ha
      cases hv with
      | vote _ _ _ _ _ _ hact => rw [hb] at hact; cases hact
      | approve _ _ _ _ _ _ _ hact => rw [hb] at hact; cases hact
      | block => dsimp only at ha; rw [hb] at ha; cases ha
      | select => cases ha; simp
      | quiet op s' hlog hact => rw [hact, hb] at ha; cases ha

/-- Two states of one history with the same start of the active range have the same range, filter and additional transactions. -/
theorem same_range (w : W) (authors : List Nat) (size : Nat) (pre post : List (Step W)) (a b : Active)
    (ha : (run handler (initial w authors size) pre).active = some a)
    (hb : (run handler (initial w authors size) (pre ++ post)).active = some b) : Later a b := by
  rw [run_append] at hb
  obtain ⟨c, h1, h2, -⟩ := run_later handler _ post a ha (partition_bound handler w authors size pre a ha)
  rw [hb] at h1; cases h1; exact h2

end Verif.EthBridge
