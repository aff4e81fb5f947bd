import Verif.Lemmas.Summary2
import Mathlib.Data.List.Induction

namespace Verif.Summary

open Verif

variable {refOf : RootId → Nat → Nat}

/-! ### Tiling -/

/-- Consecutive ranges `a..`, each starting right after the previous one, up to (excluding) `b`. -/
def TilesFrom : Nat → List Range → Nat → Prop
  | a, [], b => a = b
  | a, r :: rs, b => r.fromBlock = a ∧ r.fromBlock ≤ r.toBlock ∧ TilesFrom (r.toBlock + 1) rs b

theorem tiles_snoc {a b : Nat} {rs : List Range} (h : TilesFrom a rs b) (r : Range) (h1 : r.fromBlock = b)
    (h2 : r.fromBlock ≤ r.toBlock) : TilesFrom a (rs ++ [r]) (r.toBlock + 1) := by
  induction rs generalizing a with
  | nil => simp [TilesFrom] at h ⊢; exact ⟨by omega, h2⟩
  | cons x rs ih => exact ⟨h.1, h.2.1, ih h.2.2⟩

theorem tiles_le {a b : Nat} {rs : List Range} (h : TilesFrom a rs b) : a ≤ b := by
  induction rs generalizing a with
  | nil => exact Nat.le_of_eq h
  | cons x rs ih => have := ih h.2.2; have := h.1; have := h.2.1; omega

/-- The block lies in the range. -/
def covers (r : Range) (x : Nat) : Bool := decide (r.fromBlock ≤ x) && decide (x ≤ r.toBlock)

theorem tiles_cover {a b : Nat} {rs : List Range} (h : TilesFrom a rs b) (x : Nat) :
    rs.countP (fun r => covers r x) = if a ≤ x ∧ x < b then 1 else 0 := by
  induction rs generalizing a with
  | nil => have h : a = b := h; subst h; rw [if_neg (by omega)]; rfl
  | cons r rs ih =>
    obtain ⟨h1, h2, h3⟩ := h
    have hle := tiles_le h3
    have ih := ih h3
    rw [List.countP_cons, ih]
    by_cases hc : covers r x = true
    · simp only [covers, Bool.and_eq_true, decide_eq_true_eq] at hc
      rw [if_neg (by omega), if_pos (by simp [covers]; omega), if_pos (by omega)]
    · simp only [covers, Bool.and_eq_true, decide_eq_true_eq] at hc
      rw [if_neg (c := covers r x = true) (by simp [covers]; omega)]
      by_cases hx : r.toBlock + 1 ≤ x ∧ x < b
      · rw [if_pos hx, if_pos (by omega)]
      · rw [if_neg hx, if_neg (by omega)]

/-- The ranges validated so far, oldest first. -/
def validatedRanges (log : List Event) : List Range :=
  log.filterMap fun e => match e with
    | .validated rid _ => some rid.range
    | _ => none

theorem vr_append (a b : List Event) : validatedRanges (a ++ b) = validatedRanges a ++ validatedRanges b := by
  simp [validatedRanges]

theorem vr_quiet {evs : List Event} (h : ∀ e ∈ evs, ∀ r x, e ≠ .validated r x) : validatedRanges evs = [] := by
  rw [validatedRanges, List.filterMap_eq_nil_iff]
  intro e he
  have := h e he
  cases e with
  | validated r x => exact absurd rfl (this r x)
  | _ => rfl

theorem vr_slot {evs : List Event} (h : ∀ e ∈ evs, slotEvent e = true) : validatedRanges evs = [] := by
  refine vr_quiet ?_
  intro e he r x hx
  have := h e he
  rw [hx] at this; simp [slotEvent] at this

theorem targetBlock_ok {s : State} {t : Nat} (h : targetBlock s = .ok t) :
    t = if s.nextBlock = 0 then s.schedulePeriod else s.nextBlock + s.schedulePeriod - 1 := by
  unfold targetBlock addBlocks at h
  by_cases h1 : s.nextBlock + s.schedulePeriod < pow32
  · rw [if_pos h1] at h
    dsimp only at h
    by_cases h2 : s.nextBlock = 0
    · rw [if_pos h2] at h; cases h; rw [if_pos h2]; omega
    · rw [if_neg h2] at h
      rw [if_neg h2]
      by_cases h3 : 1 ≤ s.nextBlock + s.schedulePeriod
      · rw [if_pos h3] at h; cases h; rfl
      · rw [if_neg h3] at h; simp at h
  · rw [if_neg h1] at h; simp at h

theorem targetBlock_congr {s s' : State} (h1 : s'.nextBlock = s.nextBlock) (h2 : s'.schedulePeriod = s.schedulePeriod) :
    targetBlock s' = targetBlock s := by
  simp only [targetBlock, h1, h2]

/-- The tiling invariant. -/
structure Tile (s : State) : Prop where
  sp : 30 ≤ s.schedulePeriod
  pend : ∀ r k, s.pending r = some k → r.fromBlock = s.nextBlock ∧ targetBlock s = .ok r.toBlock
  tiles : TilesFrom 0 (validatedRanges s.log) s.nextBlock

theorem accepted_rest {s s1 : State} {rid : RootId} {d : RootData} {pub : Option Nat} (h : Accepted refOf s rid d pub s1) :
    s1.pending = s.pending ∧ s1.nextBlock = s.nextBlock ∧ s1.schedulePeriod = s.schedulePeriod ∧ s1.votes = s.votes ∧
    validatedRanges s1.log = validatedRanges s.log := by
  cases h with
  | submitted => exact ⟨rfl, rfl, rfl, rfl, rfl⟩
  | processed _ h =>
    cases h with
    | empty => exact ⟨rfl, rfl, rfl, rfl, rfl⟩
    | sent tx => exact ⟨rfl, rfl, rfl, rfl, by dsimp only; rw [vr_append]; simp [validatedRanges]⟩
    | anchored => exact ⟨rfl, rfl, rfl, rfl, by dsimp only; rw [vr_append]; simp [validatedRanges]⟩

theorem processed_rest2 {s s1 : State} {rid : RootId} {d : RootData} {pub : Option Nat} (h : Processed s rid d pub s1) :
    s1.pending = s.pending ∧ s1.nextBlock = s.nextBlock ∧ s1.schedulePeriod = s.schedulePeriod ∧
    validatedRanges s1.log = validatedRanges s.log := by
  cases h with
  | empty => exact ⟨rfl, rfl, rfl, rfl⟩
  | sent tx => exact ⟨rfl, rfl, rfl, by dsimp only; rw [vr_append]; simp [validatedRanges]⟩
  | anchored => exact ⟨rfl, rfl, rfl, by dsimp only; rw [vr_append]; simp [validatedRanges]⟩

/-- Tiling when nothing relevant changes. -/
theorem Tile.same {s s' : State} (ht : Tile s) (h1 : s'.nextBlock = s.nextBlock) (h2 : s'.schedulePeriod = s.schedulePeriod)
    (h3 : ∀ r k, s'.pending r = some k → s.pending r = some k) (h4 : validatedRanges s'.log = validatedRanges s.log) : Tile s' where
  sp := by rw [h2]; exact ht.sp
  pend := by intro r k h; rw [targetBlock_congr h1 h2, h1]; exact ht.pend r k (h3 r k h)
  tiles := by rw [h4, h1]; exact ht.tiles

/-- The call changes the schedule period. -/
def isScheduleCall : Step → Bool
  | .setPeriods .. => true
  | .setSchedule .. => true
  | _ => false

theorem Tile.micro {s s' : State} {op : Step} (ht : Tile s) (h : Micro refOf op s s')
    (hsch : isScheduleCall op = true → ∀ r, s.pending r = none) : Tile s' := by
  cases h with
  | frame _ evs hf hl he hs hp =>
    obtain ⟨f1, f2, f3, f4, f5, f6, f7, f8⟩ := hf
    have hvr : validatedRanges s'.log = validatedRanges s.log := by rw [hl, vr_append, vr_slot he]; simp
    have hnone : (∃ a b, op = .setPeriods a b) ∨ (∃ a, op = .setSchedule a) → ∀ r, s.pending r = none := by
      intro h; apply hsch
      rcases h with ⟨a, b, rfl⟩ | ⟨a, rfl⟩ <;> rfl
    rcases hs with hs | hs
    · exact ht.same f1 hs (by intro r k; rw [f5]; exact id) hvr
    · exact { sp := hp ht.sp
              pend := by intro r k h; rw [f5, hnone hs r] at h; simp at h
              tiles := by rw [hvr, f1]; exact ht.tiles }
  | recorded b h k who voteEnd hop hauth hslot hk htgt hfree hv =>
    refine { sp := ht.sp, pend := ?_, tiles := ?_ }
    · intro r k' hp
      rw [targetBlock_congr (s' := recordEffects s ⟨⟨s.nextBlock, b⟩, k⟩ h who voteEnd) (s := s) rfl rfl]
      simp only [recordEffects, upd_apply] at hp ⊢
      split at hp
      · rename_i e; rw [e]; exact ⟨rfl, htgt⟩
      · exact ht.pend r k' hp
    · simp only [recordEffects, vr_append]
      simpa [validatedRanges] using ht.tiles
  | voted rid voter approve pub prop v v' hop hv hc => exact ht.same rfl rfl (fun _ _ => id) rfl
  | approved rid v d pub s1 hval hv hd happ hacc =>
    obtain ⟨d', v', h1, h2, h3, h4⟩ := (sessionValid_iff s rid).1 hval
    obtain ⟨q1, q2, q3, q4, q5⟩ := accepted_rest hacc
    obtain ⟨p1, p2⟩ := ht.pend _ _ h2
    have hspc := ht.sp
    have hto := targetBlock_ok p2
    refine { sp := by simp only [markValidated, q3]; exact ht.sp, pend := ?_, tiles := ?_ }
    · intro r k hp
      exfalso
      simp only [markValidated, q1, upd_apply] at hp
      split at hp
      · simp at hp
      · rename_i hne
        obtain ⟨r1, r2⟩ := ht.pend r k hp
        apply hne
        rw [p2] at r2
        cases r; cases hr : rid.range
        simp only [hr] at p1 r1 r2
        simp only [Except.ok.injEq] at r2
        simp only [Range.mk.injEq]
        exact ⟨by omega, by omega⟩
    · simp only [markValidated, vr_append, q5]
      have : validatedRanges [Event.offence .rejectedValidRoot v.nays, .validated rid d.rootHash, .votingEnded rid true] =
          [rid.range] := rfl
      rw [this]
      refine tiles_snoc ht.tiles _ p1 ?_
      rw [hto, p1]
      split
      · omega
      · omega
  | rejected rid v d creator hval hv hd happ hend hc =>
    refine ht.same rfl rfl ?_ ?_
    · intro r k h
      simp only [upd_apply] at h
      split at h
      · simp at h
      · exact h
    · dsimp only; rw [vr_append]; simp [validatedRanges]
  | resolvedAccept rid ref d pub s1 hop hr hst hd hp =>
    obtain ⟨q1, q2, q3, q4⟩ := processed_rest2 hp
    refine ht.same q2 q3 ?_ ?_
    · intro r k h; simp only [cleanup, q1] at h; exact h
    · simp only [cleanup, vr_append, q4]; simp [validatedRanges]
  | resolvedReject rid ref pub hop hr hst =>
    refine ht.same rfl rfl (fun _ _ => id) ?_
    simp only [cleanup, vr_append]; simp [validatedRanges]
  | completed rid ref d pub s1 hop hr hd hp =>
    obtain ⟨q1, q2, q3, q4⟩ := processed_rest2 hp
    refine ht.same q2 q3 ?_ ?_
    · intro r k h; simp only [cleanup, q1] at h; exact h
    · simp only [cleanup, q4]
  | stuck rid ref pub hop hr => exact ht.same rfl rfl (fun _ _ => id) rfl
  | review rid ref hop hr =>
    refine ht.same rfl rfl (fun _ _ => id) ?_
    simp only [setupReview, vr_append]; simp [validatedRanges]
  | finalised rid tx hop htx =>
    refine ht.same rfl rfl (fun _ _ => id) ?_
    dsimp only; rw [vr_append]; simp [validatedRanges]

/-! ### Votes have a history -/

/-- In history `steps` the author `x` approved `rid` while it was pending. -/
def ApprovedBy (refOf : RootId → Nat → Nat) (g : State) (steps : List Step) (rid : RootId) (x : Nat) : Prop :=
  ∃ pre pub prop post, steps = pre ++ Step.vote rid x true pub prop :: post ∧
    Avn.isValidator (run refOf g pre).validators x = true ∧ (run refOf g pre).pending rid.range = some rid.ingress

/-- In history `steps` root `rid` was proposed while there were `n` authors. -/
def ProposedWith (refOf : RootId → Nat → Nat) (g : State) (steps : List Step) (rid : RootId) (n : Nat) : Prop :=
  ∃ pre h who post, steps = pre ++ Step.record rid.range.toBlock h rid.ingress who :: post ∧
    (run refOf g pre).nextBlock = rid.range.fromBlock ∧ (run refOf g pre).validators.length = n ∧
    Event.calculated rid h who ∈ (run refOf g (pre ++ [Step.record rid.range.toBlock h rid.ingress who])).log

/-- Every session has the quorum of its proposal and distinct voters who were authors. -/
def VoteInv (refOf : RootId → Nat → Nat) (g : State) (steps : List Step) (s : State) : Prop :=
  ∀ rid v, s.votes rid = some v → (∃ n, ProposedWith refOf g steps rid n ∧ v.threshold = Avn.requiredFor n) ∧
    v.ayes.Nodup ∧ ∀ x ∈ v.ayes, ApprovedBy refOf g steps rid x

theorem ApprovedBy.snoc {g : State} {steps : List Step} {rid : RootId} {x : Nat} (h : ApprovedBy refOf g steps rid x)
    (op : Step) : ApprovedBy refOf g (steps ++ [op]) rid x := by
  obtain ⟨pre, a, b, post, h1, h2⟩ := h
  exact ⟨pre, a, b, post ++ [op], by rw [h1]; simp, h2⟩

theorem ProposedWith.snoc {g : State} {steps : List Step} {rid : RootId} {x : Nat} (h : ProposedWith refOf g steps rid x)
    (op : Step) : ProposedWith refOf g (steps ++ [op]) rid x := by
  obtain ⟨pre, a, b, post, h1, h2⟩ := h
  exact ⟨pre, a, b, post ++ [op], by rw [h1]; simp, h2⟩

theorem micro_votes {s s' : State} {op : Step} (h : Micro refOf op s s') :
    s'.votes = s.votes ∨
    (∃ b hh k who ve, op = .record b hh k who ∧ s' = recordEffects s ⟨⟨s.nextBlock, b⟩, k⟩ hh who ve) ∨
    (∃ rid voter approve pub prop v v', op = .vote rid voter approve pub prop ∧ s.votes rid = some v ∧
      Avn.castVote s.validators (sessionActive s rid) v voter approve = .ok v' ∧
      s' = { s with votes := upd s.votes rid (some v') }) := by
  cases h with
  | frame _ evs hf => exact .inl hf.2.2.2.1
  | recorded b h k who voteEnd hop => exact .inr (.inl ⟨b, h, k, who, voteEnd, hop, rfl⟩)
  | voted rid voter approve pub prop v v' hop hv hc => exact .inr (.inr ⟨rid, voter, approve, pub, prop, v, v', hop, hv, hc, rfl⟩)
  | approved rid v d pub s1 hval hv hd happ hacc => exact .inl (accepted_rest hacc).2.2.2.1
  | rejected => exact .inl rfl
  | resolvedAccept rid ref d pub s1 hop hr hst hd hp => exact .inl (processed_rest hp hd).2.1
  | resolvedReject => exact .inl rfl
  | completed rid ref d pub s1 hop hr hd hp => exact .inl (processed_rest hp hd).2.1
  | stuck => exact .inl rfl
  | review => exact .inl rfl
  | finalised => exact .inl rfl

theorem sessionActive_pending {s : State} {rid : RootId} (h : sessionActive s rid = true) :
    s.pending rid.range = some rid.ingress := by
  unfold sessionActive at h
  cases hv : s.votes rid with
  | none => rw [hv] at h; simp at h
  | some v =>
    rw [hv] at h
    simp only [Bool.and_eq_true] at h
    obtain ⟨_, _, _, h2, _⟩ := (sessionValid_iff s rid).1 h.2
    exact h2

/-- Votes change only by proposing or voting. -/
theorem view_votes {s s' : State} {op : Step} (h : View refOf op s s') :
    s'.votes = s.votes ∨
    (∃ b hh k who ve, op = .record b hh k who ∧ s' = recordEffects s ⟨⟨s.nextBlock, b⟩, k⟩ hh who ve) ∨
    (∃ rid voter approve pub prop v v', op = .vote rid voter approve pub prop ∧ s.votes rid = some v ∧
      Avn.castVote s.validators (sessionActive s rid) v voter approve = .ok v' ∧
      s'.votes = upd s.votes rid (some v')) := by
  cases h with
  | same => exact .inl rfl
  | one h =>
    rcases micro_votes h with h | h | ⟨a, b, c, d, e, f, g, h1, h2, h3, rfl⟩
    · exact .inl h
    · exact .inr (.inl h)
    · exact .inr (.inr ⟨a, b, c, d, e, f, g, h1, h2, h3, rfl⟩)
  | @two s' rid x a p q v v' hop hv hc h2 =>
    rcases micro_votes (h2 (.cancelled 0)) with h | ⟨_, _, _, _, _, h, _⟩ | ⟨_, _, _, _, _, _, _, h, _⟩
    · exact .inr (.inr ⟨rid, x, a, p, q, v, v', hop, hv, hc, h⟩)
    · simp at h
    · simp at h

theorem voteInv_run (g : State) (hg : ∀ rid, g.votes rid = none) (steps : List Step) :
    VoteInv refOf g steps (run refOf g steps) := by
  induction steps using List.reverseRecOn with
  | nil => intro rid v h; simp [run, hg] at h
  | append_singleton steps op ih =>
    rw [run_snoc]
    have hrun : run refOf g (steps ++ [op]) = step refOf (run refOf g steps) op := run_snoc g steps op
    have hv := view_votes (step_view (refOf := refOf) (run refOf g steps) op)
    generalize hs' : step refOf (run refOf g steps) op = s' at hv
    have hold : ∀ rid v, (run refOf g steps).votes rid = some v → (∃ n, ProposedWith refOf g (steps ++ [op]) rid n ∧
        v.threshold = Avn.requiredFor n) ∧ v.ayes.Nodup ∧ ∀ x ∈ v.ayes, ApprovedBy refOf g (steps ++ [op]) rid x := by
      intro rid v h
      obtain ⟨⟨n, h1, h2⟩, h3, h4⟩ := ih rid v h
      exact ⟨⟨n, h1.snoc op, h2⟩, h3, fun x hx => (h4 x hx).snoc op⟩
    rcases hv with hv | ⟨b, hh, k, who, ve, rfl, rfl⟩ | ⟨rid, voter, approve, pub, prop, v, v', rfl, h1, h2, h3⟩
    · intro rid v h; rw [hv] at h; exact hold rid v h
    · intro rid v h
      simp only [recordEffects, upd_apply] at h
      split at h
      · rename_i e
        cases h
        subst e
        refine ⟨⟨(run refOf g steps).validators.length, ⟨steps, hh, who, [], rfl, rfl, rfl, ?_⟩, rfl⟩, ?_, ?_⟩
        · rw [hrun, hs']; simp [recordEffects]
        · simp [Avn.Session.new]
        · simp [Avn.Session.new]
      · exact hold rid v h
    · intro x w h
      rw [h3, upd_apply] at h
      split at h
      · rename_i e
        cases h
        subst e
        obtain ⟨g1, g2, g3⟩ := hold x v h1
        obtain ⟨c1, c2, c3, c4⟩ := castVote_ok h2
        simp only [Avn.Session.hasVoted, Bool.or_eq_false_iff] at c3
        cases approve with
        | false =>
          simp only [Bool.false_eq_true, if_false] at c4
          subst c4
          exact ⟨g1, g2, g3⟩
        | true =>
          simp only [if_true] at c4
          subst c4
          refine ⟨g1, ?_, ?_⟩
          · rw [List.nodup_append]
            refine ⟨g2, by simp, ?_⟩
            intro a ha b hb
            simp only [List.mem_singleton] at hb
            rintro rfl
            subst hb
            have := c3.1
            simp [ha] at this
          · intro y hy
            rcases List.mem_append.1 hy with hy | hy
            · exact g3 y hy
            · simp only [List.mem_singleton] at hy
              subst hy
              exact ⟨steps, pub, prop, [], rfl, c1, sessionActive_pending c2⟩
      · exact hold x w h

end Verif.Summary
