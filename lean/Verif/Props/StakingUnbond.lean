import Mathlib.Data.List.Induction
import Verif.Props.Staking

/-!
# C45, C46: scheduled requests

What a nominator has bonded with a collator is `bondOf`, read from the nominator's own record (`C41_lists_agree_with_nominators`
says the collator's lists agree). Requests are the entries of the collators' public lists of scheduled requests.
-/

namespace Verif.Staking

/-! ### Specification -/

/-- What `n` has bonded with `c`. -/
def bondOf (s : St) (n c : Nat) : Nat :=
  match s.noms n with
  | none => 0
  | some r => ((r.noms.find? (fun b => decide (b.owner = c))).map (fun b => b.amount)).getD 0

/-- What a candidate has bonded itself. -/
def selfBond (s : St) (c : Nat) : Nat := ((s.cands c).map (fun r => r.info.bond)).getD 0

/-- `n` has no request with `c`. -/
def NoRequest (s : St) (n c : Nat) : Prop := ∀ q ∈ s.reqs c, q.nominator ≠ n

/-- Property `A` was established by the call after some first part `pre` of the history, where `B` held of the state before that
call and of the call, and has held after every call since. -/
def HeldSince (P : Par) (s0 : St) (ops : List Op) (A : St → Prop) (B : St → Op → Prop) : Prop :=
  ∃ pre op post, ops = pre ++ op :: post ∧ B (run P s0 pre) op ∧
    ∀ k, k ≤ post.length → A (run P s0 (pre ++ op :: post.take k))

/-! ### Helpers -/

variable {P : Par} {s s' : St}

private theorem bondOf_eq (h : GInv P s) {n c a : Nat} (ha : HasN s.noms n c a) : bondOf s n c = a := by
  obtain ⟨r, hr, hb⟩ := ha
  unfold bondOf
  rw [hr]
  have hu := (h.n.some n r hr).sorted.uniq
  have : r.noms.find? (fun b => decide (b.owner = c)) = some ⟨c, a⟩ := findOwner_mem (d := ⟨c, a⟩) hu hb
  dsimp only
  rw [this]
  rfl

private theorem bondOf_zero {n c : Nat} (h : ∀ x, ¬ HasN s.noms n c x) : bondOf s n c = 0 := by
  unfold bondOf
  cases hr : s.noms n with
  | none => rfl
  | some r =>
    dsimp only
    cases hf : r.noms.find? (fun b => decide (b.owner = c)) with
    | none => rfl
    | some b =>
      exfalso
      have h1 := List.mem_of_find?_eq_some hf
      have h2 := List.find?_some hf
      simp only [decide_eq_true_eq] at h2
      subst h2
      exact h b.amount ⟨r, hr, h1⟩

private theorem bondOf_same (h : GInv P s) (h' : GInv P s') {n c : Nat} (e : ∀ x, HasN s'.noms n c x ↔ HasN s.noms n c x) :
    bondOf s' n c = bondOf s n c := by
  by_cases hx : ∃ x, HasN s.noms n c x
  · obtain ⟨x, hx⟩ := hx
    rw [bondOf_eq h hx, bondOf_eq h' ((e x).2 hx)]
  · rw [bondOf_zero (fun x hx' => hx ⟨x, hx'⟩), bondOf_zero (fun x hx' => hx ⟨x, (e x).1 hx'⟩)]

/-- A property of the state that each step either inherits or establishes has held since it was last established. -/
private theorem heldSince {s0 : St} {A : St → Prop} {B : St → Op → Prop} (h0 : ¬ A s0)
    (hstep : ∀ ops op, A (step P (run P s0 ops) op) → A (run P s0 ops) ∨ B (run P s0 ops) op) (ops : List Op)
    (hA : A (run P s0 ops)) : HeldSince P s0 ops A B := by
  induction ops using List.reverseRecOn with
  | nil => exact absurd hA h0
  | append_singleton ops op ih =>
    rw [run_snoc] at hA
    by_cases hb : A (run P s0 ops)
    · obtain ⟨pre, o, post, e, h1, h2⟩ := ih hb
      refine ⟨pre, o, post ++ [op], by rw [e]; simp, h1, ?_⟩
      intro k hk
      by_cases hkl : k ≤ post.length
      · rw [List.take_append_of_le_length hkl]; exact h2 k hkl
      · have hk' : k = post.length + 1 := by rw [List.length_append] at hk; simp at hk; omega
        subst hk'
        rw [show (post ++ [op]).take (post.length + 1) = post ++ [op] from List.take_of_length_le (by simp)]
        have e2 : pre ++ o :: (post ++ [op]) = ops ++ [op] := by rw [e]; simp
        rw [e2, run_snoc]
        exact hA
    · rcases hstep ops op hA with h | h
      · exact absurd h hb
      · refine ⟨ops, op, [], rfl, h, ?_⟩
        intro k hk
        have : k = 0 := by simpa using hk
        subst this
        show A (run P s0 (ops ++ [op]))
        rw [run_snoc]
        exact hA

/-! ### C45: a nominator's bond -/

/-- C45: if a call makes a nominator's bond with a collator smaller, then it executed, for that nominator, a request of that
nominator with that collator whose era has come, by exactly the requested amount, and no request of the pair is left; or another
nominator's nomination pushed this one out of the collator's full list, entirely; or the collator itself left after its exit
was due. -/
theorem C45_bond_shrinks_only_when_due (P : Par) (hP : P.Sane) (s : St) (hs : Reach P s) (op : Op) (n c : Nat)
    (h : bondOf (step P s op) n c < bondOf s n c) :
    (op.executes n c ∧ (∃ q ∈ s.reqs c, q.nominator = n ∧ q.due ≤ s.era ∧ bondOf (step P s op) n c + q.amount = bondOf s n c) ∧
      NoRequest (step P s op) n c) ∨
    (bondOf (step P s op) n c = 0 ∧ NoRequest (step P s op) n c ∧ ∃ m, m ≠ n ∧ op.nominates m c) ∨
    (bondOf (step P s op) n c = 0 ∧ NoRequest (step P s op) n c ∧ ∃ hint r w, op = .executeLeave c hint ∧ s.cands c = some r ∧
      r.info.status = .leaving w ∧ w ≤ s.era) := by
  have hi := hs.inv hP
  have hst := step_ok hP.ok hP.per.1 hi op
  cases hst.pair n c with
  | same e => rw [bondOf_same hi.g hst.inv.g e.1] at h; omega
  | nominated _ a was now _ => rw [bondOf_zero was] at h; omega
  | more _ a k was now _ =>
    rw [bondOf_eq hi.g was, bondOf_eq hst.inv.g ((now (a + k)).2 rfl)] at h; omega
  | scheduled _ e _ _ _ _ => rw [bondOf_same hi.g hst.inv.g e] at h; omega
  | cancelled _ e _ _ => rw [bondOf_same hi.g hst.inv.g e] at h; omega
  | executed who e =>
    obtain ⟨q, h1, h2, h3, h4, a, h5, h6, h7, h8⟩ := e
    refine Or.inl ⟨who, ⟨q, h1, h2, h3, ?_⟩, h4⟩
    rw [bondOf_eq hi.g h5]
    cases hrev : q.revoke with
    | true =>
      rw [bondOf_zero (fun x hx => by have := ((h8 x).1 hx).1; rw [hrev] at this; cases this), h7 hrev]; omega
    | false =>
      rw [bondOf_eq hst.inv.g ((h8 (a - q.amount)).2 ⟨hrev, rfl⟩)]; omega
  | kicked m who other was e => exact Or.inr (Or.inl ⟨bondOf_zero e.1, e.2, m, other, who⟩)
  | left hint who r w cand status due e => exact Or.inr (Or.inr ⟨bondOf_zero e.1, e.2, hint, r, w, who, cand, status, due⟩)

/-- C45: every request in the list was put there by a call of its nominator, which recorded the era of that call plus the delay of
that time, and has been in the list ever since: it was neither executed nor cancelled in between. -/
theorem C45_request_in_list_since_scheduled (P : Par) (hP : P.Sane) (delay mt mc : Nat) (free : Nat → Nat) (hm : P.minPer ≤ mt)
    (ops : List Op) (c : Nat) (q : Req) (hq : q ∈ (run P (St.init delay mt mc free) ops).reqs c) :
    HeldSince P (St.init delay mt mc free) ops (fun s => q ∈ s.reqs c)
      (fun s op => op.schedules q.nominator c ∧ q.due = s.era + s.delay) := by
  refine heldSince (A := fun s => q ∈ s.reqs c) (fun h => by cases h) ?_ ops hq
  intro ops op hA
  have hi := run_inv hP.ok hP.per.1 (init_inv (delay := delay) (mc := mc) (free := free) hm) ops
  have hst := step_ok hP.ok hP.per.1 hi op
  cases hst.pair q.nominator c with
  | same e => exact Or.inl ((e.2 q rfl).1 hA)
  | nominated _ a was now req => exact Or.inl ((req q rfl).1 hA)
  | more _ a k was now req => exact Or.inl ((req q rfl).1 hA)
  | scheduled who _ x hx due req =>
    have := (req q rfl).1 hA
    subst this
    exact Or.inr ⟨who, due⟩
  | cancelled _ _ _ req => exact absurd rfl (req q hA)
  | executed _ e => obtain ⟨_, _, _, _, h4, _⟩ := e; exact absurd rfl (h4 q hA)
  | kicked _ _ _ _ e => exact absurd rfl (e.2 q hA)
  | left _ _ _ _ _ _ _ e => exact absurd rfl (e.2 q hA)

/-- C45: eras only advance. -/
theorem C45_era_monotone (P : Par) (hP : P.Sane) (s : St) (hs : Reach P s) (op : Op) :
    s.era ≤ (step P s op).era ∧ (step P s op).era ≤ s.era + 1 := by
  rcases (step_ok hP.ok hP.per.1 (hs.inv hP) op).era with h | ⟨_, h⟩ <;> rw [h] <;> omega

/-- C45: the two parts together. If executing made a bond smaller, then an earlier call of the nominator scheduled a request for
exactly the difference, at least the delay of that time ago, and that request was in the list ever since. -/
theorem C45_release_needs_matured_request (P : Par) (hP : P.Sane) (delay mt mc : Nat) (free : Nat → Nat) (hm : P.minPer ≤ mt)
    (ops : List Op) (op : Op) (n c : Nat) (ho : op.executes n c)
    (h : bondOf (run P (St.init delay mt mc free) (ops ++ [op])) n c < bondOf (run P (St.init delay mt mc free) ops) n c) :
    ∃ q : Req, q.nominator = n ∧
      bondOf (run P (St.init delay mt mc free) (ops ++ [op])) n c + q.amount = bondOf (run P (St.init delay mt mc free) ops) n c ∧
      HeldSince P (St.init delay mt mc free) ops (fun s => q ∈ s.reqs c)
        (fun s o => o.schedules n c ∧ s.era + s.delay ≤ (run P (St.init delay mt mc free) ops).era) ∧
      NoRequest (run P (St.init delay mt mc free) (ops ++ [op])) n c := by
  rw [run_snoc] at h ⊢
  have hs : Reach P (run P (St.init delay mt mc free) ops) := ⟨_, _, _, _, _, hm, rfl⟩
  rcases C45_bond_shrinks_only_when_due P hP _ hs op n c h with ⟨_, ⟨q, h1, h2, h3, h4⟩, h5⟩ | ⟨_, _, m, hne, hm'⟩ |
      ⟨_, _, hint, r, w, e, _⟩
  · obtain ⟨pre, o, post, e, ⟨g1, g2⟩, g3⟩ := C45_request_in_list_since_scheduled P hP delay mt mc free hm ops c q h1
    exact ⟨q, h2, h4, ⟨pre, o, post, e, ⟨by rw [← h2]; exact g1, by omega⟩, g3⟩, h5⟩
  · cases op <;> first | exact absurd ho id | exact absurd hm' id
  · subst e; exact absurd ho id

/-- C45: a cancelled request is gone. -/
theorem C45_cancel_removes (P : Par) (hP : P.Sane) (s s' : St) (hs : Reach P s) (n c : Nat)
    (h : call P s (.cancelRequest n c) = some s') :
    (∃ q ∈ s.reqs c, q.nominator = n) ∧ NoRequest s' n c ∧ ∀ m d, bondOf s' m d = bondOf s m d := by
  have hi := hs.inv hP
  have hc := cancelRequest_ok hi.g h
  refine ⟨hc.was, ?_, fun m d => bondOf_same hi.g hc.inv (hc.bonds m d)⟩
  intro q hq
  rw [hc.reqs, upd_same] at hq
  exact ((dropReq_mem (hi.g.n.uniq c)).1 hq).2

/-- C45: without a request nothing can be executed. -/
theorem C45_nothing_to_execute (P : Par) (s : St) (n c : Nat) (h : NoRequest s n c) : call P s (.executeRequest n c) = none := by
  show executeRequest P s n c = none
  unfold executeRequest
  cases s.noms n with
  | none => rfl
  | some r =>
    dsimp only
    cases hf : findReq (s.reqs c) n with
    | none => rfl
    | some q => exact absurd (findReq_some hf).2 (h q (findReq_some hf).1)

/-! ### C45: a candidate's own bond -/

/-- C45: if a call makes a candidate's own bond smaller, it executed that candidate's request whose era has come, by exactly the
requested amount, and the request is gone; or it was the candidate's exit, which was due. -/
theorem C45_candidate_bond_shrinks_only_when_due (P : Par) (hP : P.Sane) (s : St) (hs : Reach P s) (op : Op) (c : Nat)
    (h : selfBond (step P s op) c < selfBond s c) :
    (∃ r r' q, op = .candExecuteUnbond c ∧ s.cands c = some r ∧ (step P s op).cands c = some r' ∧ r.info.request = some q ∧
      q.due ≤ s.era ∧ selfBond (step P s op) c + q.amount = selfBond s c ∧ r'.info.request = none) ∨
    (∃ hint r w, op = .executeLeave c hint ∧ s.cands c = some r ∧ r.info.status = .leaving w ∧ w ≤ s.era ∧
      (step P s op).cands c = none) := by
  have hst := step_ok hP.ok hP.per.1 (hs.inv hP) op
  have hb : ∀ {t : St} {r : CRec}, t.cands c = some r → selfBond t c = r.info.bond := by
    intro t r hr; unfold selfBond; rw [hr]; rfl
  cases hst.cand c with
  | absent e e' => unfold selfBond at h; rw [e, e'] at h; exact absurd h (Nat.lt_irrefl _)
  | same r r' e e' b _ _ => rw [hb e, hb e', b] at h; omega
  | joined _ _ _ _ e r' e' _ _ _ => unfold selfBond at h; rw [e] at h; exact absurd h (Nat.not_lt_zero _)
  | status _ r r' e e' b _ _ => rw [hb e, hb e', b] at h; omega
  | leaving _ _ r r' e e' b _ _ _ => rw [hb e, hb e', b] at h; omega
  | left hint who r w e e' st due => exact Or.inr ⟨hint, r, w, who, e, st, due, e'⟩
  | more k _ r r' e e' b _ _ => rw [hb e, hb e', b] at h; omega
  | unbondScheduled _ _ r r' e e' b _ _ _ => rw [hb e, hb e', b] at h; omega
  | unbondExecuted who r r' q e e' was due b req _ =>
    exact Or.inl ⟨r, r', q, who, e, e', was, due, by rw [hb e, hb e']; exact b, req⟩
  | unbondCancelled _ r r' e e' b _ _ _ => rw [hb e, hb e', b] at h; omega

/-- C45: a candidate's pending unbonding request was recorded by its own call with the era of that call plus the delay, and has
been pending ever since. -/
theorem C45_candidate_request_since_scheduled (P : Par) (hP : P.Sane) (delay mt mc : Nat) (free : Nat → Nat) (hm : P.minPer ≤ mt)
    (ops : List Op) (c : Nat) (q : UnbondReq)
    (hq : ((run P (St.init delay mt mc free) ops).cands c).bind (fun r => r.info.request) = some q) :
    HeldSince P (St.init delay mt mc free) ops (fun s => (s.cands c).bind (fun r => r.info.request) = some q)
      (fun s op => op = .candScheduleUnbond c q.amount ∧ q.due = s.era + s.delay) := by
  refine heldSince (A := fun s => (s.cands c).bind (fun r => r.info.request) = some q) (fun h => by cases h) ?_ ops hq
  intro ops op hA
  have hi := run_inv hP.ok hP.per.1 (init_inv (delay := delay) (mc := mc) (free := free) hm) ops
  have hst := step_ok hP.ok hP.per.1 hi op
  cases hst.cand c with
  | absent e e' => rw [e'] at hA; cases hA
  | same r r' e e' _ b _ => left; rw [e'] at hA; rw [e]; rw [Option.bind_some] at hA ⊢; rw [← b]; exact hA
  | joined _ _ _ _ e r' e' _ b _ => rw [e'] at hA; rw [Option.bind_some, b] at hA; cases hA
  | status _ r r' e e' _ b _ => left; rw [e'] at hA; rw [e]; rw [Option.bind_some] at hA ⊢; rw [← b]; exact hA
  | leaving _ _ r r' e e' _ b _ _ => left; rw [e'] at hA; rw [e]; rw [Option.bind_some] at hA ⊢; rw [← b]; exact hA
  | left hint who r w e e' st due => rw [e'] at hA; cases hA
  | more k _ r r' e e' _ b _ => left; rw [e'] at hA; rw [e]; rw [Option.bind_some] at hA ⊢; rw [← b]; exact hA
  | unbondScheduled k who r r' e e' _ _ b _ =>
    right
    rw [e', Option.bind_some, b] at hA
    injection hA with hA
    subst hA
    exact ⟨who, rfl⟩
  | unbondExecuted who r r' q e e' was due _ b _ => rw [e', Option.bind_some, b] at hA; cases hA
  | unbondCancelled _ r r' e e' _ _ b _ => rw [e', Option.bind_some, b] at hA; cases hA

/-- C45: a candidate that is leaving asked for it itself; the exit is due at the era of that call plus the delay, and it has been
leaving ever since. -/
theorem C45_exit_since_scheduled (P : Par) (hP : P.Sane) (delay mt mc : Nat) (free : Nat → Nat) (hm : P.minPer ≤ mt)
    (ops : List Op) (c w : Nat)
    (hq : ((run P (St.init delay mt mc free) ops).cands c).map (fun r => r.info.status) = some (.leaving w)) :
    HeldSince P (St.init delay mt mc free) ops (fun s => (s.cands c).map (fun r => r.info.status) = some (.leaving w))
      (fun s op => (∃ hint, op = .scheduleLeave c hint) ∧ w = s.era + s.delay) := by
  refine heldSince (A := fun s => (s.cands c).map (fun r => r.info.status) = some (.leaving w)) (fun h => by cases h) ?_ ops hq
  intro ops op hA
  have hi := run_inv hP.ok hP.per.1 (init_inv (delay := delay) (mc := mc) (free := free) hm) ops
  have hst := step_ok hP.ok hP.per.1 hi op
  cases hst.cand c with
  | absent e e' => rw [e'] at hA; cases hA
  | same r r' e e' _ _ b => left; rw [e', Option.map_some, b] at hA; rw [e, Option.map_some]; exact hA
  | joined _ _ _ _ e r' e' _ _ b => rw [e', Option.map_some, b] at hA; cases hA
  | status _ r r' e e' _ _ b =>
    rw [e', Option.map_some] at hA
    injection hA with hA
    unfold Info.isLeaving at b
    rw [hA] at b
    cases b
  | leaving hint who r r' e e' _ _ _ b =>
    right
    rw [e', Option.map_some, b] at hA
    injection hA with hA
    injection hA with hA
    exact ⟨⟨hint, who⟩, hA.symm⟩
  | left hint who r w e e' st due => rw [e'] at hA; cases hA
  | more k _ r r' e e' _ _ b => left; rw [e', Option.map_some, b] at hA; rw [e, Option.map_some]; exact hA
  | unbondScheduled k who r r' e e' _ _ _ b => left; rw [e', Option.map_some, b] at hA; rw [e, Option.map_some]; exact hA
  | unbondExecuted who r r' q e e' was due _ _ b => left; rw [e', Option.map_some, b] at hA; rw [e, Option.map_some]; exact hA
  | unbondCancelled _ r r' e e' _ _ _ b => left; rw [e', Option.map_some, b] at hA; rw [e, Option.map_some]; exact hA

/-! ### C46 -/

/-- C46, the part that holds: when the collator's list has room, a successful call records the request, with the whole bond as
amount for a revoke and the requested amount for a decrease, due after the delay. Missing: a full list. -/
theorem C46_recorded_when_room_partial (P : Par) (hP : P.Sane) (s s' : St) (hs : Reach P s) (n c : Nat)
    (hroom : (s.reqs c).length < P.maxPer) :
    (call P s (.scheduleRevoke n c) = some s' → (⟨n, true, bondOf s n c, s.era + s.delay⟩ : Req) ∈ s'.reqs c) ∧
    (∀ less, call P s (.scheduleDecrease n c less) = some s' → (⟨n, false, less, s.era + s.delay⟩ : Req) ∈ s'.reqs c) := by
  have hi := (hs.inv hP).g
  constructor
  · intro h
    obtain ⟨a, ha, hsp⟩ := scheduleRevoke_ok hi h
    rw [bondOf_eq hi ha, hsp.reqs, upd_same, if_pos hroom]
    simp
  · intro less h
    obtain ⟨a, ha, _, _, hsp⟩ := scheduleDecrease_ok hi h
    rw [hsp.reqs, upd_same, if_pos hroom]
    simp

/-- C46: a full list. The call succeeds and nothing at all is recorded: the state is unchanged. -/
theorem C46_full_list_records_nothing (P : Par) (hP : P.Sane) (s : St) (hs : Reach P s) (n c a : Nat)
    (hfull : P.maxPer ≤ (s.reqs c).length) (hno : NoRequest s n c) (r : Nomr) (hr : s.noms n = some r)
    (ha : (⟨c, a⟩ : Bond) ∈ r.noms) : call P s (.scheduleRevoke n c) = some s := by
  have hi := (hs.inv hP).g
  show scheduleRevoke P s n c = some s
  unfold scheduleRevoke
  rw [hr]
  dsimp only
  rw [if_neg (by
      intro h
      obtain ⟨q, hq, e⟩ := List.any_eq_true.1 h
      exact hno q hq (by unfold Req.by at e; simpa using e)),
    findOwner_mem (d := ⟨c, a⟩) (hi.n.some n r hr).sorted.uniq ha]
  dsimp only
  rw [if_neg (by omega)]

/-- C46, the part that holds: from its era on, a recorded decrease or revoke can be executed, provided the nominator then keeps at
least the minimum total, or the revoke is of its only nomination. Missing: the revokes that would leave less than the minimum. -/
theorem C46_executable_after_delay_partial (P : Par) (hP : P.Sane) (s : St) (hs : Reach P s) (n c : Nat) (q : Req)
    (hq : q ∈ s.reqs c) (hn : q.nominator = n) (hdue : q.due ≤ s.era) (r : Nomr) (hr : s.noms n = some r)
    (hmin : (q.revoke = true ∧ r.noms.length = 1) ∨ s.minTotal + q.amount ≤ r.total) :
    ∃ s', call P s (.executeRequest n c) = some s' ∧ bondOf s' n c + q.amount = bondOf s n c ∧ NoRequest s' n c := by
  have hi := (hs.inv hP).g
  obtain ⟨s', hs'⟩ := executeRequest_succeeds hP.ok hi hq hn hdue hr hmin
  obtain ⟨q', he⟩ := executeRequest_ok hP.ok hi hs'
  have e : q' = q := RUniq.eq (hi.n.uniq c) he.mem hq (he.by_.trans hn.symm)
  subst e
  refine ⟨s', hs', ?_, ?_⟩
  · obtain ⟨a, g1, g2, g3, g4, g5⟩ := he.bond
    rw [bondOf_eq hi g1]
    cases hrev : q'.revoke with
    | true =>
      rw [bondOf_zero (fun x hx => ?_), g3 hrev]
      · omega
      · rcases (g5 n c x).1 hx with e | e
        · have := e.2.2.1; rw [hrev] at this; cases this
        · exact e.2 ⟨rfl, rfl⟩
    | false =>
      rw [bondOf_eq he.inv ((g5 n c (a - q'.amount)).2 (Or.inl ⟨rfl, rfl, hrev, rfl⟩))]
      omega
  · intro x hx
    rw [he.reqs, upd_same] at hx
    exact ((dropReq_mem (hi.n.uniq c)).1 hx).2

/-- C46: scheduling the revocation of everything succeeds even if some collator's list is full, and then records nothing there. -/
theorem C46_revoke_all_records_or_skips_partial (P : Par) (hP : P.Sane) (s s' : St) (hs : Reach P s) (n : Nat)
    (h : call P s (.revokeAll n) = some s') (r : Nomr) (hr : s.noms n = some r) (c a : Nat) (ha : (⟨c, a⟩ : Bond) ∈ r.noms) :
    (∃ q ∈ s'.reqs c, q.nominator = n ∧ q.revoke = true ∧ q.amount = a) ∨
    (P.maxPer ≤ (s.reqs c).length ∧ NoRequest s' n c) := by
  obtain ⟨_, _, h3⟩ := revokeAll_ok (hs.inv hP).g h
  rcases h3 c a ⟨r, hr, ha⟩ with g | ⟨g1, g2, g3⟩
  · exact Or.inl g
  · exact Or.inr ⟨g2, fun q hq => g3 q (by rw [← g1]; exact hq)⟩

/-- One scheduled request per collator. -/
def tinyPar : Par := ⟨⟨3, 3, 10⟩, 1, 1, true⟩

/-- The counterexample: 2 has a request with collator 1; 3's call succeeds (the state is the same, which is not a refusal), and
after any number of eras there is nothing to execute. -/
theorem C46_successful_call_without_request :
    let s := run tinyPar (St.init 2 1 1 (fun _ => 1000))
      [.join 1 10 10 true, .nominate 2 1 50 10 10, .nominate 3 1 20 10 10, .scheduleRevoke 2 1]
    (call tinyPar s (.scheduleRevoke 3 1)).isSome = true ∧
    ((call tinyPar s (.scheduleRevoke 3 1)).map (fun t => (t.reqs 1).any (fun q => decide (q.nominator = 3)))) = some false ∧
    (call tinyPar (run tinyPar s [.scheduleRevoke 3 1, .newEra, .newEra, .newEra]) (.executeRequest 3 1)).isSome = false := by
  decide +kernel

/-- A second counterexample: nominator 2 bonds 60 and 40 with two collators under a minimum total of 50 and schedules the
revocation of 60. The request is recorded and its era comes, but executing it is refused since 40 would remain. -/
theorem C46_recorded_revoke_refused :
    let s := run smallPar (St.init 2 50 1 (fun _ => 1000))
      [.join 1 10 10 true, .join 9 10 10 true, .nominate 2 1 60 10 10, .nominate 2 9 40 10 10, .scheduleRevoke 2 1, .newEra, .newEra]
    (s.reqs 1, s.era) = ([⟨2, true, 60, 3⟩], 3) ∧ (call smallPar s (.executeRequest 2 1)).isSome = false := by
  decide +kernel

/-! ### The hypotheses are met -/

private def demo : List Op :=
  [.join 1 10 10 true, .nominate 2 1 50 10 10, .candBondExtra 1 30, .candScheduleUnbond 1 7, .scheduleDecrease 2 1 20, .newEra, .newEra]

private def demoState : St := run smallPar (St.init 2 1 1 (fun _ => 1000)) demo

example : smallPar.Sane := ⟨by decide, by decide, by decide, by decide⟩

example : Reach smallPar demoState := ⟨_, _, _, _, _, by decide, rfl⟩

example : bondOf (step smallPar demoState (.executeRequest 2 1)) 2 1 = 30 ∧ bondOf demoState 2 1 = 50 := by decide +kernel

example : selfBond (step smallPar demoState (.candExecuteUnbond 1)) 1 = 33 ∧ selfBond demoState 1 = 40 := by decide +kernel

example : (call smallPar demoState (.cancelRequest 2 1)).isSome = true := by decide +kernel

example : ((step smallPar demoState (.scheduleLeave 1 10)).cands 1).map (fun r => r.info.status) = some (.leaving 5) := by
  decide +kernel

end Verif.Staking
