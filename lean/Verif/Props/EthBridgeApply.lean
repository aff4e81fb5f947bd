import Verif.Props.EthBridgeEvents

/-!
# Property C78: an approved partition is applied completely, in order, and reported truthfully

Also the value of a start-block vote (C15). The specification vocabulary is the log of observable effects (events handed
to the runtime and the pallet events `EventAccepted`/`EventRejected`) and two small definitions on it.
-/

namespace Verif.EthBridge

open Verif.Events

variable {W : Type} (handler : W → EthEvent → W × Bool)

/-- Specification: what the rest of the runtime looks like after the events handed over in `log` are applied in order,
each exactly once. -/
def applyHandled : W → List Obs → W
  | w, [] => w
  | w, .handled e :: l => applyHandled (handler w e).1 l
  | w, _ :: l => applyHandled w l

/-- Specification: a log is truthful if every event handed over is immediately followed by `EventAccepted` when the
runtime reported success and by `EventRejected` when it reported failure, and `EventAccepted` occurs nowhere else. -/
inductive Truthful : W → List Obs → Prop
  | nil (w : W) : Truthful w []
  | ok (w : W) (e : EthEvent) (l : List Obs) (h : (handler w e).2 = true) (t : Truthful (handler w e).1 l) :
      Truthful w (.handled e :: .accepted e :: l)
  | fail (w : W) (e : EthEvent) (l : List Obs) (h : (handler w e).2 = false) (t : Truthful (handler w e).1 l) :
      Truthful w (.handled e :: .rejected e :: l)
  | other (w : W) (o : Obs) (l : List Obs) (h1 : ∀ e, o ≠ .handled e) (h2 : ∀ e, o ≠ .accepted e)
      (t : Truthful w l) : Truthful w (o :: l)

theorem applyHandled_append (w : W) (a b : List Obs) :
    applyHandled handler w (a ++ b) = applyHandled handler (applyHandled handler w a) b := by
  induction a generalizing w with
  | nil => rfl
  | cons o a ih => cases o <;> simp [applyHandled, ih]

theorem Truthful.append {w : W} {a b : List Obs} (ha : Truthful handler w a)
    (hb : Truthful handler (applyHandled handler w a) b) : Truthful handler w (a ++ b) := by
  induction ha with
  | nil w => exact hb
  | ok w e l h t ih => exact .ok w e _ h (ih hb)
  | fail w e l h t ih => exact .fail w e _ h (ih hb)
  | other w o l h1 h2 t ih =>
    refine .other w o _ h1 h2 (ih ?_)
    cases o <;> first | exact hb | (exfalso; exact h1 _ rfl)

/-- Events handed over are applied and reported. -/
def Applies (s s' : State W) : Prop :=
  ∃ new, s'.log = s.log ++ new ∧ s'.world = applyHandled handler s.world new ∧ Truthful handler s.world new

theorem Applies.refl (s : State W) : Applies handler s s := ⟨[], by simp, rfl, .nil _⟩

theorem Applies.trans {s t u : State W} (h1 : Applies handler s t) (h2 : Applies handler t u) :
    Applies handler s u := by
  obtain ⟨n1, l1, w1, t1⟩ := h1
  obtain ⟨n2, l2, w2, t2⟩ := h2
  refine ⟨n1 ++ n2, by simp [l2, l1], ?_, ?_⟩
  · rw [applyHandled_append, ← w1, w2]
  · exact t1.append handler (by rw [← w1]; exact t2)

theorem processEvent_eq {s s' : State W} {n : Nat} {e : EthEvent} (h : processEvent handler s n e = some s') :
    s'.world = (handler s.world e).1 ∧
      s'.log = s.log ++ [.handled e, if (handler s.world e).2 then .accepted e else .rejected e] := by
  unfold processEvent at h
  by_cases h1 : processedEventExists s n e = true
  · simp [h1] at h
  · simp only [h1, if_false, Bool.false_eq_true] at h
    cases h2 : addProcessedEventOn s n e true with
    | none => simp [h2] at h
    | some s1 =>
      simp only [h2, Option.some.injEq] at h
      have h3 : addProcessedEvent s e true = some s1 := by
        unfold addProcessedEventOn at h2
        by_cases hc : (s.instanceValid && s.network == n) = true
        · simpa [hc] using h2
        · simp [hc] at h2
      obtain ⟨id, rfl⟩ := addProcessedEvent_spec h3
      subst h
      exact ⟨rfl, rfl⟩

theorem processDiscovered_applies (n : Nat) (a : Active) (s : State W) (d : Discovered) :
    Applies handler s (processDiscovered handler n a s d) := by
  have hq : Applies handler s { s with log := s.log ++ [.rejected d.event] } :=
    ⟨_, rfl, rfl, .other _ _ _ (by simp) (by simp) (.nil _)⟩
  unfold processDiscovered
  cases tryFrom d.event.signature with
  | none => exact Applies.refl handler s
  | some kind =>
    simp only
    by_cases h1 : a.filter.contains kind = true
    · simp only [h1, if_true]
      by_cases h2 : d.block > a.range.endBlock
      · simp only [h2, if_true]; exact hq
      · simp only [h2, if_false]
        cases h3 : processEvent handler s n d.event with
        | none => exact hq
        | some s' =>
          obtain ⟨hw, hl⟩ := processEvent_eq handler h3
          refine ⟨_, hl, ?_, ?_⟩
          · cases hb : (handler s.world d.event).2 <;> simp [applyHandled, hw]
          · cases hb : (handler s.world d.event).2
            · exact .fail _ _ _ hb (.nil _)
            · exact .ok _ _ _ hb (.nil _)
    · simp only [h1, if_false, Bool.false_eq_true]; exact Applies.refl handler s

theorem processFold_applies (n : Nat) (a : Active) (evs : List Discovered) (s : State W) :
    Applies handler s (evs.foldl (processDiscovered handler n a) s) := by
  induction evs generalizing s with
  | nil => exact Applies.refl handler s
  | cons d evs ih => exact (processDiscovered_applies handler n a s d).trans handler (ih _)

theorem advancePartition_world (s : State W) (a : Active) (p : Partition) :
    (advancePartition s a p).world = s.world ∧ (advancePartition s a p).log = s.log ∧
      (advancePartition s a p).processed = s.processed := by
  unfold advancePartition; cases p.isLast <;> simp

theorem migrateBatch_world (n : Nat) (batch : List (EthEvent × Bool)) (s : State W) :
    (migrateBatch s n batch).world = s.world := by
  unfold migrateBatch
  induction batch generalizing s with
  | nil => rfl
  | cons e batch ih =>
    simp only [List.foldl_cons]
    rw [ih]
    cases h2 : addProcessedEventOn s n e.1 e.2 with
    | none => rfl
    | some s1 =>
      unfold addProcessedEventOn at h2
      by_cases hc : (s.instanceValid && s.network == n) = true
      · simp only [hc, if_true] at h2
        obtain ⟨id, rfl⟩ := addProcessedEvent_spec h2
        rfl
      · simp [hc] at h2

theorem step_applies (s : State W) (op : Step W) (hx : ∀ w, op ≠ .external w) : Applies handler s (step handler s op) := by
  have hid := Applies.refl handler s
  cases op with
  | submitEvents a p =>
    simp only [step]
    by_cases ha : isAuthor s a = true
    · simp only [ha, if_true, transactional]
      cases hr : (submitEvents handler s a p).2 with
      | some e => simpa using hid
      | none =>
        simp only [Option.isSome_none, Bool.false_eq_true, if_false]
        obtain ⟨act, vs, h1, h2, h3, h4, h5, h6, h7⟩ := submitEvents_ok handler hr
        rcases h7 with ⟨hq, he⟩ | ⟨hq, he⟩
        · rw [he]; exact ⟨_, rfl, rfl, .other _ _ _ (by simp) (by simp) (.nil _)⟩
        · rw [he]
          have h0 : Applies handler s { s with log := s.log ++ [.eventVote a p] ++ [.approved p] } :=
            ⟨[.eventVote a p, .approved p], by simp, rfl,
              .other _ _ _ (by simp) (by simp) (.other _ _ _ (by simp) (by simp) (.nil _))⟩
          have hf := processFold_applies handler s.network act p.events
            { s with log := s.log ++ [.eventVote a p] ++ [.approved p], votes := s.votes.filter (fun e => e.1 ≠ p) }
          obtain ⟨hw, hl, -⟩ := advancePartition_world (processPartition handler
            { s with log := s.log ++ [.eventVote a p] ++ [.approved p] } s.network act p) act p
          refine h0.trans handler ?_
          obtain ⟨new, l, w, t⟩ := hf
          exact ⟨new, by rw [hl]; exact l, by rw [hw]; exact w, t⟩
    · simp only [ha, Bool.false_eq_true, if_false]; exact hid
  | submitBlock a l =>
    simp only [step]
    by_cases ha : isAuthor s a = true
    · simp only [ha, if_true, transactional]
      cases hr : (submitBlock s a l).2 with
      | some e => simpa using hid
      | none =>
        simp only [Option.isSome_none, Bool.false_eq_true, if_false]
        obtain ⟨b, vs, h1, h2, h3, h4, h5, h6⟩ := submitBlock_ok hr
        rcases h6 with ⟨hq, he⟩ | ⟨hq, r, hsel, he⟩
        · rw [he]; exact ⟨_, rfl, rfl, .other _ _ _ (by simp) (by simp) (.nil _)⟩
        · rw [he]
          exact ⟨[.blockVote a b, .rangeSelected r], by simp, rfl,
            .other _ _ _ (by simp) (by simp) (.other _ _ _ (by simp) (by simp) (.nil _))⟩
    · simp only [ha, Bool.false_eq_true, if_false]; exact hid
  | admin keep c =>
    simp only [step, transactional]
    cases hr : (admin s keep c).2 with
    | some e => simpa using hid
    | none =>
      simp only [Option.isSome_none, Bool.false_eq_true, if_false]
      obtain ⟨h1, h2, -⟩ := admin_ok hr
      refine ⟨[], by simp [h2], ?_, .nil _⟩
      cases c with
      | queueAdditional h =>
        simp only [admin, applyHandled]
        by_cases h1 : alreadyAccepted s h = true
        · simp [h1]
        · simp only [h1, Bool.false_eq_true, if_false]
          cases tryInsert 16 s.queue h <;> rfl
      | restartDiscovery => rfl
      | setInstance v n => cases v <;> rfl
  | migrate n b =>
    obtain ⟨f, l, m⟩ := migrateBatch_spec n b s
    exact ⟨[], by simp [step, l], migrateBatch_world n b s, .nil _⟩
  | addProcessed e acc =>
    simp only [step]
    cases h : addProcessedEvent s e acc with
    | none => exact hid
    | some s' =>
      obtain ⟨id, rfl⟩ := addProcessedEvent_spec h
      exact ⟨[], by simp, rfl, .nil _⟩
  | newAuthors as => exact ⟨[], by simp [step], rfl, .nil _⟩
  | external w => exact absurd rfl (hx w)

/-- **C78, exactly once and in order.** Every step other than activity elsewhere changes the rest of the runtime by
applying the events it hands over, each exactly once, in the order in which they are handed over, and by nothing else. -/
theorem C78_world_is_the_fold (s : State W) (op : Step W) (hx : ∀ w, op ≠ .external w) (new : List Obs)
    (hl : (step handler s op).log = s.log ++ new) :
    (step handler s op).world = applyHandled handler s.world new := by
  obtain ⟨n, l, w, -⟩ := step_applies handler s op hx
  have : n = new := List.append_cancel_left (l.symm.trans hl)
  subst this; exact w

/-- **C78, truthful outcome.** In every step, an event handed to the runtime is reported `EventAccepted` exactly when
the runtime applied it successfully and `EventRejected` exactly when it failed; `EventAccepted` is reported for nothing
else. -/
theorem C78_outcome_is_truthful (s : State W) (op : Step W) (hx : ∀ w, op ≠ .external w) (new : List Obs)
    (hl : (step handler s op).log = s.log ++ new) : Truthful handler s.world new := by
  obtain ⟨n, l, -, t⟩ := step_applies handler s op hx
  have : n = new := List.append_cancel_left (l.symm.trans hl)
  subst this; exact t

/-- **C78, whole histories without activity elsewhere.** The rest of the runtime is the fold of the handler over
everything ever handed over. -/
theorem C78_history_is_the_fold (s : State W) (ops : List (Step W)) (hx : ∀ op ∈ ops, ∀ w, op ≠ .external w) :
    ∃ new, (run handler s ops).log = s.log ++ new ∧ (run handler s ops).world = applyHandled handler s.world new ∧
      Truthful handler s.world new := by
  have : Applies handler s (run handler s ops) := by
    induction ops generalizing s with
    | nil => exact Applies.refl handler s
    | cons op ops ih =>
      exact (step_applies handler s op (hx op (by simp))).trans handler
        (ih _ (fun o ho => hx o (List.mem_cons_of_mem _ ho)))
  exact this

/-! ### Completeness -/

/-- An event that qualifies is handed over and marked. -/
theorem processEvent_fresh (s : State W) (n : Nat) (e : EthEvent) (hi : s.instanceValid = true) (hn : s.network = n)
    (hf : s.processed e.txHash = none) (k : ValidEvent) (hk : tryFrom e.signature = some k) :
    ∃ s', processEvent handler s n e = some s' := by
  have h1 : processedEventExists s n e = false := by simp [processedEventExists, hi, hn, hf]
  have h2 : ∃ s1, addProcessedEventOn s n e true = some s1 := by
    simp only [addProcessedEventOn, hi, hn, beq_self_eq_true, Bool.and_self, if_true, addProcessedEvent,
      alreadyAccepted, hf, Bool.false_eq_true, if_false, hk]
    by_cases h : legacyLiftSignatures.contains e.signature = true
    · simp only [h, if_true]; exact ⟨_, rfl⟩
    · simp only [h, Bool.false_eq_true, if_false]; exact ⟨_, rfl⟩
  obtain ⟨s1, h2⟩ := h2
  simp only [processEvent, h1, Bool.false_eq_true, if_false, h2]
  exact ⟨_, rfl⟩

theorem fold_complete (n : Nat) (a : Active) (evs : List Discovered) (s : State W) (d : Discovered)
    (hd : d ∈ evs) (hi : s.instanceValid = true) (hn : s.network = n) (k : ValidEvent)
    (hk : tryFrom d.event.signature = some k) (hfil : k ∈ a.filter) (hb : d.block ≤ a.range.endBlock)
    (hp : s.processed d.event.txHash = none) (new : List Obs)
    (hl : (evs.foldl (processDiscovered handler n a) s).log = s.log ++ new) :
    d.event.txHash ∈ handledHashes new ∧
      ((∀ d' ∈ evs, d'.event.txHash = d.event.txHash → d'.event = d.event) → .handled d.event ∈ new) := by
  induction evs generalizing s new with
  | nil => simp at hd
  | cons x evs ih =>
    simp only [List.foldl_cons] at hl
    obtain ⟨f1, g1, n1, l1, o1⟩ := processDiscovered_spec handler n a s x
    obtain ⟨f2, g2, n2, l2, o2⟩ := processFold_spec handler n a evs (processDiscovered handler n a s x)
    have hnew : new = n1 ++ n2 := by
      rw [l2, l1, List.append_assoc] at hl
      exact (List.append_cancel_left hl).symm
    by_cases hx : d.event.txHash ∈ handledHashes n1
    · refine ⟨by rw [hnew, handledHashes_append]; exact List.mem_append_left _ hx, fun huniq => ?_⟩
      rw [hnew]; apply List.mem_append_left
      simp only [handledHashes, List.mem_filterMap] at hx
      obtain ⟨o, ho, hoe⟩ := hx
      obtain ⟨d', hd', h⟩ := o1 o ho
      have hd'x : d' = x := by simpa using hd'
      subst hd'x
      rcases h with h | h | h
      · subst h
        have : d'.event.txHash = d.event.txHash := by simpa using hoe
        rw [← huniq d' (by simp) this]; exact ho
      · subst h; simp at hoe
      · subst h; simp at hoe
    · have hdx : d ≠ x := by
        rintro rfl
        apply hx
        obtain ⟨s', hs'⟩ := processEvent_fresh handler s n d.event hi hn hp k hk
        have : (processDiscovered handler n a s d) = s' := by
          have h2 : ¬ d.block > a.range.endBlock := by omega
          simp only [processDiscovered, hk, List.contains_iff_mem.2 hfil, if_true, h2, if_false, hs']
        rw [this] at l1
        obtain ⟨-, hl'⟩ := processEvent_eq handler hs'
        have : n1 = _ := List.append_cancel_left (l1.symm.trans hl')
        rw [this]; simp [handledHashes]
      have hd' : d ∈ evs := by
        rcases List.mem_cons.1 hd with h | h
        · exact absurd h hdx
        · exact h
      obtain ⟨-, -, -, -, -, f6, f7, -⟩ := f1
      have hp' : (processDiscovered handler n a s x).processed d.event.txHash = none := by
        unfold processDiscovered at l1 ⊢
        cases hkx : tryFrom x.event.signature with
        | none => exact hp
        | some kx =>
          simp only [hkx] at l1 ⊢
          by_cases h1 : a.filter.contains kx = true
          · simp only [h1, if_true] at l1 ⊢
            by_cases h2 : x.block > a.range.endBlock
            · simp only [h2, if_true]; exact hp
            · simp only [h2, if_false] at l1 ⊢
              cases h3 : processEvent handler s n x.event with
              | none => exact hp
              | some s' =>
                simp only [h3] at l1 ⊢
                obtain ⟨-, hl'⟩ := processEvent_eq handler h3
                have hn1 : n1 = _ := List.append_cancel_left (l1.symm.trans hl')
                have hne : d.event.txHash ≠ x.event.txHash := by
                  intro he
                  apply hx; rw [hn1, he]; simp [handledHashes]
                unfold processEvent at h3
                by_cases h4 : processedEventExists s n x.event = true
                · simp [h4] at h3
                · simp only [h4, if_false, Bool.false_eq_true] at h3
                  cases h5 : addProcessedEventOn s n x.event true with
                  | none => simp [h5] at h3
                  | some s1 =>
                    simp only [h5, Option.some.injEq] at h3
                    have h6 : addProcessedEvent s x.event true = some s1 := by
                      unfold addProcessedEventOn at h5
                      by_cases hc : (s.instanceValid && s.network == n) = true
                      · simpa [hc] using h5
                      · simp [hc] at h5
                    obtain ⟨id, rfl⟩ := addProcessedEvent_spec h6
                    subst h3
                    simp [upd_apply, hne, hp]
          · simp only [h1, Bool.false_eq_true, if_false]; exact hp
      have hih := ih (processDiscovered handler n a s x) hd' (f6.trans hi) (f7.trans hn) hp' n2 l2
      refine ⟨by rw [hnew, handledHashes_append]; exact List.mem_append_right _ hih.1, fun huniq => ?_⟩
      rw [hnew]; apply List.mem_append_right
      exact hih.2 (fun d' hd' => huniq d' (List.mem_cons_of_mem _ hd'))

/-- **C78, completeness.** When a step approves partition `p`, every event of `p` that is of a recognised kind in the
active filter, not beyond the last block of the active range, and whose transaction was not processed before, has its
transaction handed to the runtime in that very step; if no other event of the partition carries the same transaction
hash, it is that event that is handed over. -/
theorem C78_approved_events_are_applied (s : State W) (op : Step W) (p : Partition) (new : List Obs)
    (hl : (step handler s op).log = s.log ++ new) (hp : p ∈ approvedOf new) :
    ∃ act, s.active = some act ∧ ∀ d ∈ p.events, ∀ k, tryFrom d.event.signature = some k → k ∈ act.filter →
      d.block ≤ act.range.endBlock → s.processed d.event.txHash = none →
      d.event.txHash ∈ handledHashes new ∧
      ((∀ d' ∈ p.events, d'.event.txHash = d.event.txHash → d'.event = d.event) → .handled d.event ∈ new) := by
  obtain ⟨act, -, hact, -⟩ := C14_approved_is_active handler s op p new hl hp
  refine ⟨act, hact, ?_⟩
  have hv := step_view handler s op
  cases op with
  | submitEvents a q =>
    simp only [step] at hl
    by_cases ha : isAuthor s a = true
    · simp only [ha, if_true, transactional] at hl
      cases hr : (submitEvents handler s a q).2 with
      | some e =>
        simp only [hr, Option.isSome_some, if_true] at hl
        have : new = [] := by simpa using hl
        subst this; simp [approvedOf] at hp
      | none =>
        simp only [hr, Option.isSome_none, Bool.false_eq_true, if_false] at hl
        obtain ⟨act', vs, h1, h2, h3, h4, h5, h6, h7⟩ := submitEvents_ok handler hr
        have : act' = act := by rw [hact] at h2; exact (Option.some.inj h2).symm
        subst this
        rcases h7 with ⟨hq, he⟩ | ⟨hq, he⟩
        · rw [he] at hl
          have : new = [.eventVote a q] := (List.append_cancel_left hl).symm
          subst this; simp [approvedOf] at hp
        · rw [he] at hl
          obtain ⟨-, hadv, -⟩ := advancePartition_world (processPartition handler
            { s with log := s.log ++ [.eventVote a q] ++ [.approved q] } s.network act' q) act' q
          rw [hadv] at hl
          obtain ⟨-, -, n1, l1, o1⟩ := processFold_spec handler s.network act' q.events
            { s with log := s.log ++ [.eventVote a q] ++ [.approved q], votes := s.votes.filter (fun e => e.1 ≠ q) }
          have hl' : s.log ++ [.eventVote a q] ++ [.approved q] ++ n1 = s.log ++ new := l1.symm.trans hl
          have hnew : new = [.eventVote a q, .approved q] ++ n1 := by
            simp only [List.append_assoc] at hl'
            exact (List.append_cancel_left hl').symm
          have hpq : p = q := by
            have hq' : approvedOf n1 = [] := by
              unfold approvedOf
              rw [List.filterMap_eq_nil_iff]
              intro o ho
              obtain ⟨d, _, rfl | rfl | rfl⟩ := o1 o ho <;> rfl
            rw [hnew, approvedOf_append, hq'] at hp
            simpa [approvedOf] using hp
          subst hpq
          intro d hd k hk hfil hb hpr
          obtain ⟨c1, c2⟩ := fold_complete handler s.network act' p.events
            { s with log := s.log ++ [.eventVote a p] ++ [.approved p], votes := s.votes.filter (fun e => e.1 ≠ p) }
            d hd h1 rfl k hk hfil hb hpr n1 l1
          rw [hnew]
          refine ⟨by rw [handledHashes_append]; exact List.mem_append_right _ c1, fun hu => ?_⟩
          exact List.mem_append_right _ (c2 hu)
    · simp only [ha, Bool.false_eq_true, if_false] at hl
      have : new = [] := by simpa using hl
      subst this; simp [approvedOf] at hp
  | submitBlock a l =>
    generalize step handler s (.submitBlock a l) = s' at hv hl
    cases hv with
    | block _ _ b vs =>
      have : new = [.blockVote a b] := (List.append_cancel_left hl).symm
      subst this; simp [approvedOf] at hp
    | select _ _ b vs r =>
      have : new = [.blockVote a b, .rangeSelected r] := by
        simp only [List.append_assoc] at hl
        exact (List.append_cancel_left hl).symm
      subst this; simp [approvedOf] at hp
    | quiet op s' hlog =>
      have : new = [] := by rw [hlog] at hl; simpa using hl
      subst this; simp [approvedOf] at hp
  | admin keep c =>
    generalize step handler s (.admin keep c) = s' at hv hl
    cases hv with
    | quiet op s' hlog =>
      have : new = [] := by rw [hlog] at hl; simpa using hl
      subst this; simp [approvedOf] at hp
  | migrate n b =>
    generalize step handler s (.migrate n b) = s' at hv hl
    cases hv with
    | quiet op s' hlog =>
      have : new = [] := by rw [hlog] at hl; simpa using hl
      subst this; simp [approvedOf] at hp
  | addProcessed e acc =>
    generalize step handler s (.addProcessed e acc) = s' at hv hl
    cases hv with
    | quiet op s' hlog =>
      have : new = [] := by rw [hlog] at hl; simpa using hl
      subst this; simp [approvedOf] at hp
  | newAuthors as =>
    have : new = [] := by simpa [step] using hl
    subst this; simp [approvedOf] at hp
  | external w =>
    have : new = [] := by simpa [step] using hl
    subst this; simp [approvedOf] at hp

/-- **C78, the filter in every reachable state.** From genesis the active filter is always the core primary filter:
exactly the recognised event kinds that are neither NFT events nor the legacy lift kinds. -/
theorem C78_filter_is_core (w : W) (authors : List Nat) (size : Nat) (ops : List (Step W)) (act : Active)
    (h : (run handler (initial w authors size) ops).active = some act) : act.filter = corePrimaryFilter := by
  induction ops using List.reverseRecOn generalizing act with
  | nil => simp [run, initial] at h
  | append_singleton steps op ih =>
    rw [run_snoc] at h
    have hv := step_view handler (run handler (initial w authors size) steps) op
    generalize run handler (initial w authors size) steps = s at hv ih h
    generalize step handler s op = s' at hv h
    cases hv with
    | vote => exact ih _ h
    | approve a q act' vs s' hauth hok hact hr hn hv hi hq hvotes hauths hsub hact' =>
      rw [hact'] at h
      have h := Option.some.inj h
      subst h
      cases q.isLast
      · have h := ih _ hact; exact h
      · rfl
    | block => exact ih _ h
    | select a l b vs r => have h := Option.some.inj h; subst h; rfl
    | quiet op s' hlog hact => rw [hact] at h; exact ih _ h

/-- Non-vacuity: the completeness hypotheses hold for the lift of `exPart` in the step that approves it, and a failing
handler's rejection is reported. -/
example : approvedOf ((run exHandler ex0 (exSteps.take 4)).log.drop 4) = [exPart] ∧
    (run exHandler ex0 (exSteps.take 3)).processed 77 = none ∧
    tryFrom exEvent.signature = some .lifted ∧ ValidEvent.lifted ∈ corePrimaryFilter ∧
    Obs.accepted exEvent ∈ (run exHandler ex0 exSteps).log ∧
    Obs.rejected exEvent ∈ (run (fun w _ => (w + 1, false)) ex0 (exSteps.take 4)).log := by
  decide +kernel

/-! ### C15: the value of a start-block vote -/

/-- **C15, what a vote stands for.** A successful block vote of author `a` reporting Ethereum block `l` counts for the
block `b` that is the largest multiple of the range size not above `l` minus five ranges (or minus nothing below zero);
so every vote lags the reported block by at least five ranges, and all votes are range-aligned. -/
theorem C15_vote_is_aligned_and_lags (s : State W) (op : Step W) (a b : Nat) (new : List Obs)
    (hl : (step handler s op).log = s.log ++ new) (hb : .blockVote a b ∈ new) (hsize : 5 * s.rangeSize < 2 ^ 32) :
    ∃ l, op = .submitBlock a l ∧ 0 < s.rangeSize ∧ s.rangeSize ∣ b ∧
      b ≤ l - 5 * s.rangeSize ∧ l - 5 * s.rangeSize < b + s.rangeSize := by
  have key : ∀ l, computeStartBlock l s.rangeSize = some b → 0 < s.rangeSize ∧ s.rangeSize ∣ b ∧
      b ≤ l - 5 * s.rangeSize ∧ l - 5 * s.rangeSize < b + s.rangeSize := by
    intro l h
    unfold computeStartBlock at h
    have h32 : pow32 = 2 ^ 32 := rfl
    rw [h32, Nat.mod_eq_of_lt hsize] at h
    by_cases hz : s.rangeSize = 0
    · simp [hz] at h
    · simp only [hz, if_false, Option.some.injEq] at h
      generalize l - 5 * s.rangeSize = x at h ⊢
      have hm := Nat.mod_lt x (Nat.pos_of_ne_zero hz)
      have hle := Nat.mod_le x s.rangeSize
      refine ⟨Nat.pos_of_ne_zero hz, ?_, by omega, by omega⟩
      rw [← h]; exact Nat.dvd_sub_mod x
  have hv := step_view handler s op
  generalize step handler s op = s' at hv hl
  cases hv with
  | vote a' q act vs =>
    have : new = [.eventVote a' q] := (List.append_cancel_left hl).symm
    subst this; simp at hb
  | approve a' q act vs s' hauth hok hact hr hn hv hi hq hvotes hauths hsub hact' hqueue hgrow new' hlog hnew =>
    have : new = [.eventVote a' q, .approved q] ++ new' := by
      rw [hlog] at hl; exact (List.append_cancel_left hl).symm
    subst this
    have hb' : Obs.blockVote a b ∈ new' := by simpa using hb
    obtain ⟨d, _, h | h | h⟩ := hnew _ hb' <;> simp at h
  | block a' l b' vs hauth hact hv hc =>
    have : new = [.blockVote a' b'] := (List.append_cancel_left hl).symm
    subst this
    obtain ⟨rfl, rfl⟩ : a = a' ∧ b = b' := by simpa using hb
    exact ⟨l, rfl, key l hc⟩
  | select a' l b' vs r hauth hact hv hc =>
    have : new = [.blockVote a' b', .rangeSelected r] := by
      simp only [List.append_assoc] at hl
      exact (List.append_cancel_left hl).symm
    subst this
    obtain ⟨rfl, rfl⟩ : a = a' ∧ b = b' := by simpa using hb
    exact ⟨l, rfl, key l hc⟩
  | quiet op s' hlog =>
    have : new = [] := by rw [hlog] at hl; simpa using hl
    subst this; simp at hb

/-- Non-vacuity: with range size 10, reporting block 158 votes for 100. -/
example : Obs.blockVote 1 100 ∈ (step exHandler ex0 (.submitBlock 1 158)).log ∧ 5 * ex0.rangeSize < 2 ^ 32 := by
  decide +kernel

end Verif.EthBridge
