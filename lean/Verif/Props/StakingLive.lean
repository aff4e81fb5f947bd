import Verif.Props.StakingUnbond

/-!
# C146: valid staking requests are honoured

For states reached by any history of calls: which staking requests succeed. Each theorem gives the exact condition, in terms of the
ledger (records, lists, requests, free balances), under which the call is not refused.
-/

namespace Verif.Staking

/-! ### Specification -/

/-- The call is carried out. -/
def Accepted (P : Par) (s : St) (op : Op) : Prop := ∃ s', call P s op = some s'

/-- The candidate's record has a given status. -/
def CandidateIs (s : St) (c : Nat) (st : CStatus) : Prop := ∃ r, s.cands c = some r ∧ r.info.status = st

/-- A new nomination of `amount` finds a place with the candidate: one of its two lists has a free place, or a smaller nomination
is there to be pushed out. -/
def RoomFor (P : Par) (r : CRec) (amount : Nat) : Prop :=
  r.top.list.length < P.cfg.maxTop ∨ r.bottom.list.length < P.cfg.maxBottom ∨
  ∃ b ∈ r.top.list ++ r.bottom.list, b.amount < amount

/-- The pool does not mention the account. -/
def NotInPool (s : St) (c : Nat) : Prop := ∀ x ∈ s.pool, x.owner ≠ c

/-! ### Helpers -/

private theorem insert_new {cap : Nat} {l : List Bond} (hs : KeySorted Bond.owner l) {v : Bond} (h : ∀ x ∈ l, x.owner ≠ v.owner) :
    (∃ l', setInsert Bond.owner cap l v = (.added, l')) ↔ l.length < cap := by
  rcases setInsert_cases hs cap v with ⟨⟨x, hx, e⟩, _⟩ | ⟨a, b, _, _, _, e⟩
  · exact absurd e (h x hx)
  · by_cases hc : l.length < cap
    · rw [e, if_pos hc]; exact ⟨fun _ => hc, fun _ => ⟨_, rfl⟩⟩
    · rw [e, if_neg hc]
      constructor
      · rintro ⟨l', h⟩; cases h
      · intro h; exact absurd h hc

private theorem insert_full {cap : Nat} {l : List Bond} (hs : KeySorted Bond.owner l) {v : Bond} (h : ∀ x ∈ l, x.owner ≠ v.owner)
    (hc : ¬ l.length < cap) : setInsert Bond.owner cap l v = (.full, l) := by
  rcases setInsert_cases hs cap v with ⟨⟨x, hx, e⟩, _⟩ | ⟨a, b, _, _, _, e⟩
  · exact absurd e (h x hx)
  · rw [e, if_neg hc]

private theorem not_in_pool {P : Par} {s : St} (h : GInv P s) {c : Nat} (hc : ∀ r, s.cands c = some r → r.info.status ≠ .active) :
    NotInPool s c := by
  intro x hx e
  obtain ⟨r, hr⟩ := Option.isSome_iff_exists.1 (h.c.dom x hx)
  rw [e] at hr
  have hp := (h.c.inv c r hr).pool
  refine hp.no ?_ x hx e
  have := hc r hr
  show (r.info.status == .active) = false
  simpa using this

/-! ### Candidates -/

/-- C146: becoming a candidate succeeds exactly for a registered account that is neither candidate nor nominator, bonds at least the
minimum out of its free balance, and gives a large enough hint, while the pool has a free place. -/
theorem C146_join_accepted_iff (P : Par) (hP : P.Sane) (s : St) (hs : Reach P s) (c bond hint : Nat) (registered : Bool) :
    Accepted P s (.join c bond hint registered) ↔
      s.cands c = none ∧ s.noms c = none ∧ s.minCollator ≤ bond ∧ registered = true ∧ s.pool.length ≤ hint ∧
      s.pool.length < P.cfg.maxPool ∧ bond ≤ s.free c := by
  have h := (hs.inv hP).g
  unfold Accepted call joinCandidates
  dsimp only
  by_cases h1 : (s.cands c).isSome = true ∨ (s.noms c).isSome = true ∨ bond < s.minCollator ∨ registered = false ∨ hint < s.pool.length
  · rw [if_pos h1]
    constructor
    · rintro ⟨_, h⟩; cases h
    · rintro ⟨a1, a2, a3, a4, a5, _⟩
      rw [a1, a2, a4] at h1
      simp at h1
      omega
  · rw [if_neg h1]
    have hc : s.cands c = none := by
      cases e : s.cands c with
      | none => rfl
      | some r => rw [e] at h1; simp at h1
    have hn : s.noms c = none := by
      cases e : s.noms c with
      | none => rfl
      | some r => rw [e] at h1; simp at h1
    have hnp : NotInPool s c := not_in_pool h (fun r hr => by rw [hc] at hr; cases hr)
    have hfree : s.candFree c = s.free c := by unfold St.candFree; rw [hc]; rfl
    push Not at h1
    obtain ⟨_, _, b3, b4, b5⟩ := h1
    rw [hfree]
    by_cases hi : s.pool.length < P.cfg.maxPool
    · obtain ⟨l, e⟩ := (insert_new h.c.sorted (v := ⟨c, bond⟩) hnp).2 hi
      rw [e]
      dsimp only
      by_cases hf : s.free c < bond
      · rw [if_pos hf]
        constructor
        · rintro ⟨_, e⟩; cases e
        · rintro ⟨_, _, _, _, _, _, a7⟩; omega
      · rw [if_neg hf]
        exact ⟨fun _ => ⟨hc, hn, by omega, by simpa using b4, by omega, hi, by omega⟩, fun _ => ⟨_, rfl⟩⟩
    · rw [insert_full h.c.sorted (v := ⟨c, bond⟩) hnp hi]
      constructor
      · rintro ⟨_, e⟩; cases e
      · rintro ⟨_, _, _, _, _, a6, _⟩; exact absurd a6 hi

/-- C146: a candidate that is not already leaving may schedule its exit (with a large enough hint), and nobody else. -/
theorem C146_schedule_leave_accepted_iff (P : Par) (s : St) (c hint : Nat) :
    Accepted P s (.scheduleLeave c hint) ↔
      s.pool.length ≤ hint ∧ (CandidateIs s c .active ∨ CandidateIs s c .idle) := by
  unfold Accepted call scheduleLeave CandidateIs
  dsimp only
  cases hc : s.cands c with
  | none => simp
  | some r =>
    unfold Info.scheduleLeave Info.isLeaving
    cases hst : r.info.status with
    | leaving w => simp [hst]
    | active =>
      by_cases hh : hint < s.pool.length
      · simp [hst, hh]
      · simp [hst, hh]; omega
    | idle =>
      by_cases hh : hint < s.pool.length
      · simp [hst, hh]
      · simp [hst, hh]; omega

/-- C146: from its era on, a scheduled exit goes through, whatever nominations and requests there are: the nominators' stakes
cannot get in its way. The hint must cover the number of nominations. -/
theorem C146_exit_accepted_iff (P : Par) (hP : P.Sane) (s : St) (hs : Reach P s) (c hint : Nat) :
    Accepted P s (.executeLeave c hint) ↔
      ∃ r w, s.cands c = some r ∧ r.info.status = .leaving w ∧ w ≤ s.era ∧
        r.top.list.length + r.bottom.list.length ≤ hint := by
  have h := (hs.inv hP).g
  constructor
  · rintro ⟨s', hs'⟩
    obtain ⟨r, hr, hl⟩ := executeLeave_ok hP.ok h hs'
    obtain ⟨w, hw, hdue⟩ := hl.due
    refine ⟨r, w, hr, hw, hdue, ?_⟩
    have hcount : r.info.count = r.top.list.length + r.bottom.list.length := (h.c.inv c r hr).cache.count
    rw [← hcount]
    unfold call executeLeave at hs'
    dsimp only at hs'
    rw [hr] at hs'
    dsimp only at hs'
    by_cases hh : hint < r.info.count
    · rw [if_pos hh] at hs'; cases hs'
    · omega
  · rintro ⟨r, w, hr, hw, hdue, hh⟩
    have hcount : r.info.count = r.top.list.length + r.bottom.list.length := (h.c.inv c r hr).cache.count
    have hi := h.c.inv c r hr
    obtain ⟨s1, f1, _⟩ := returnStake_fold hP.ok c (r.top.list ++ r.bottom.list) s h.n hi.uniq
      (by intro b hb; exact (h.link _ _ _).1 ⟨r, hr, hb⟩)
    have hl : ¬ r.info.canLeave s.era = false := by
      unfold Info.canLeave; rw [hw]; simpa using hdue
    unfold Accepted call executeLeave
    dsimp only
    rw [hr]
    dsimp only
    rw [if_neg (by omega), if_neg hl, f1]
    exact ⟨_, rfl⟩

/-- C146: a leaving candidate can change its mind at any time while the pool has a free place. -/
theorem C146_cancel_leave_accepted_iff (P : Par) (hP : P.Sane) (s : St) (hs : Reach P s) (c hint : Nat) :
    Accepted P s (.cancelLeave c hint) ↔
      s.pool.length ≤ hint ∧ s.pool.length < P.cfg.maxPool ∧ ∃ w, CandidateIs s c (.leaving w) := by
  have h := (hs.inv hP).g
  unfold Accepted call cancelLeave CandidateIs
  dsimp only
  cases hc : s.cands c with
  | none => simp
  | some r =>
    dsimp only
    by_cases h1 : r.info.isLeaving = false ∨ hint < s.pool.length
    · rw [if_pos h1]
      constructor
      · rintro ⟨_, h⟩; cases h
      · rintro ⟨a1, _, w, r', e, hw⟩
        injection e with e
        subst e
        unfold Info.isLeaving at h1
        rw [hw] at h1
        simp at h1
        omega
    · rw [if_neg h1]
      push Not at h1
      obtain ⟨b1, b2⟩ := h1
      have hw : ∃ w, r.info.status = .leaving w := by
        unfold Info.isLeaving at b1
        cases hst : r.info.status with
        | active => rw [hst] at b1; exact absurd rfl b1
        | idle => rw [hst] at b1; exact absurd rfl b1
        | leaving w => exact ⟨w, rfl⟩
      obtain ⟨w, hw⟩ := hw
      have hnp : NotInPool s c := not_in_pool h (fun r' hr' => by
        rw [hc] at hr'; injection hr' with hr'; subst hr'; rw [hw]; intro e; cases e)
      by_cases hi : s.pool.length < P.cfg.maxPool
      · obtain ⟨l, e⟩ := (insert_new h.c.sorted (v := ⟨c, r.info.totalCounted⟩) hnp).2 hi
        rw [e]
        exact ⟨fun _ => ⟨by omega, hi, w, r, rfl, hw⟩, fun _ => ⟨_, rfl⟩⟩
      · rw [insert_full h.c.sorted (v := ⟨c, r.info.totalCounted⟩) hnp hi]
        constructor
        · rintro ⟨_, e⟩; cases e
        · rintro ⟨_, a, _⟩; exact absurd a hi

/-- C146: exactly an active candidate can go offline. -/
theorem C146_go_offline_accepted_iff (P : Par) (s : St) (c : Nat) :
    Accepted P s (.goOffline c) ↔ CandidateIs s c .active := by
  unfold Accepted call goOffline CandidateIs
  dsimp only
  cases hc : s.cands c with
  | none => simp
  | some r =>
    have : r.info.isActive = true ↔ r.info.status = .active := by unfold Info.isActive; simp
    dsimp only
    by_cases hst : r.info.isActive = false
    · rw [if_pos hst]
      constructor
      · rintro ⟨_, e⟩; cases e
      · rintro ⟨r', e, h⟩
        injection e with e; subst e
        rw [this.2 h] at hst; cases hst
    · rw [if_neg hst]
      exact ⟨fun _ => ⟨r, rfl, this.1 (by simpa using hst)⟩, fun _ => ⟨_, rfl⟩⟩

/-- C146: exactly an idle candidate can come back online, while the pool has a free place. -/
theorem C146_go_online_accepted_iff (P : Par) (hP : P.Sane) (s : St) (hs : Reach P s) (c : Nat) :
    Accepted P s (.goOnline c) ↔ s.pool.length < P.cfg.maxPool ∧ CandidateIs s c .idle := by
  have h := (hs.inv hP).g
  unfold Accepted call goOnline CandidateIs
  dsimp only
  cases hc : s.cands c with
  | none => simp
  | some r =>
    dsimp only
    by_cases h1 : r.info.isActive = true ∨ r.info.isLeaving = true
    · rw [if_pos h1]
      constructor
      · rintro ⟨_, h⟩; cases h
      · rintro ⟨_, r', e, hw⟩
        injection e with e
        subst e
        unfold Info.isLeaving Info.isActive at h1
        rw [hw] at h1
        simp at h1
    · rw [if_neg h1]
      have hw : r.info.status = .idle := by
        unfold Info.isLeaving Info.isActive at h1
        cases hst : r.info.status with
        | active => rw [hst] at h1; exact absurd (Or.inl rfl) h1
        | idle => rfl
        | leaving w => rw [hst] at h1; exact absurd (Or.inr rfl) h1
      have hnp : NotInPool s c := not_in_pool h (fun r' hr' => by
        rw [hc] at hr'; injection hr' with hr'; subst hr'; rw [hw]; intro e; cases e)
      by_cases hi : s.pool.length < P.cfg.maxPool
      · obtain ⟨l, e⟩ := (insert_new h.c.sorted (v := ⟨c, r.info.totalCounted⟩) hnp).2 hi
        rw [e]
        exact ⟨fun _ => ⟨hi, r, rfl, hw⟩, fun _ => ⟨_, rfl⟩⟩
      · rw [insert_full h.c.sorted (v := ⟨c, r.info.totalCounted⟩) hnp hi]
        constructor
        · rintro ⟨_, e⟩; cases e
        · rintro ⟨a, _⟩; exact absurd a hi

/-- C146: a candidate can always add what it has free to its bond. -/
theorem C146_candidate_bond_extra_accepted_iff (P : Par) (s : St) (c more : Nat) :
    Accepted P s (.candBondExtra c more) ↔ ∃ r, s.cands c = some r ∧ more ≤ s.free c - r.info.bond := by
  unfold Accepted call candBondExtra
  dsimp only
  cases hc : s.cands c with
  | none => simp
  | some r =>
    have hf : s.candFree c = s.free c - r.info.bond := by unfold St.candFree; rw [hc]; rfl
    dsimp only
    rw [hf]
    by_cases h : s.free c - r.info.bond < more
    · rw [if_pos h]
      constructor
      · rintro ⟨_, e⟩; cases e
      · rintro ⟨r', e, hh⟩; injection e with e; subst e; omega
    · rw [if_neg h]
      exact ⟨fun _ => ⟨r, rfl, by omega⟩, fun _ => ⟨_, rfl⟩⟩

/-- C146: a candidate without a pending reduction can schedule one that leaves the minimum (and something). -/
theorem C146_candidate_unbond_scheduled_iff (P : Par) (s : St) (c less : Nat) :
    Accepted P s (.candScheduleUnbond c less) ↔
      ∃ r, s.cands c = some r ∧ r.info.request = none ∧ less < r.info.bond ∧ s.minCollator + less ≤ r.info.bond := by
  unfold Accepted call candScheduleUnbond Info.scheduleUnbond
  dsimp only
  cases hc : s.cands c with
  | none => simp
  | some r =>
    dsimp only
    by_cases h : r.info.request = none ∧ r.info.bond > less ∧ r.info.bond - less ≥ s.minCollator
    · rw [if_pos h]
      exact ⟨fun _ => ⟨r, rfl, h.1, h.2.1, by omega⟩, fun _ => ⟨_, rfl⟩⟩
    · rw [if_neg h]
      constructor
      · rintro ⟨_, e⟩; cases e
      · rintro ⟨r', e, h1, h2, h3⟩
        injection e with e; subst e
        exact absurd ⟨h1, h2, by omega⟩ h

/-- C146: a scheduled reduction of a candidate's bond can be executed from its era on, and cancelled at any time. -/
theorem C146_candidate_unbond_executed_iff (P : Par) (s : St) (c : Nat) :
    (Accepted P s (.candExecuteUnbond c) ↔ ∃ r q, s.cands c = some r ∧ r.info.request = some q ∧ q.due ≤ s.era) ∧
    (Accepted P s (.candCancelUnbond c) ↔ ∃ r q, s.cands c = some r ∧ r.info.request = some q) := by
  unfold Accepted call candExecuteUnbond candCancelUnbond Info.executeUnbond Info.cancelUnbond
  dsimp only
  cases hc : s.cands c with
  | none => simp
  | some r =>
    cases hq : r.info.request with
    | none => simp [hq]
    | some q =>
      by_cases hd : q.due ≤ s.era
      · simp [hq, hd]
      · simp [hq, hd]

/-! ### Nominators -/

private theorem kept_by_kick {P : Par} {s t : St} {c n : Nat} (l : List Bond) (hP : P.Ok) (hn : NSide P t.noms t.nlock t.reqs)
    (hl : l.length ≤ 1) (hx : ∀ x ∈ l, HasN t.noms x.owner c x.amount ∧ x.owner ≠ n) (hts : t.noms = s.noms ∧ t.free = s.free) :
    (l.foldl (fun s b => kickOne s c b) t).nomFree n = s.nomFree n := by
  cases l with
  | nil => unfold St.nomFree; rw [List.foldl_nil, hts.1, hts.2]
  | cons x l =>
    cases l with
    | cons y l => simp at hl
    | nil =>
      obtain ⟨⟨rx, hrx, hmx⟩, hne⟩ := hx x (List.mem_cons_self ..)
      have e := kickOne_eq hP hn (c := c) (b := x) (r := rx) hrx hmx
      obtain ⟨_, a2, a3, _⟩ := takeOut_ok hn (c := c) (b := x) (r := rx) hrx hmx
      rw [List.foldl_cons, List.foldl_nil, e]
      unfold St.nomFree
      rw [a3 n (fun e => hne e.symm), a2.free, hts.1, hts.2]

private theorem addNomination_room {P : Par} (hP : P.Ok) {c n amount : Nat} {k : Cand} (h : CInv P.cfg c k) :
    (∃ x, addNomination P.cfg c k ⟨n, amount⟩ = .ok x) ↔
      RoomFor P k.toRec amount := by
  have hcfg := hP.cfg
  unfold RoomFor addNomination
  show _ ↔ k.top.list.length < P.cfg.maxTop ∨ k.bottom.list.length < P.cfg.maxBottom ∨ ∃ b ∈ k.top.list ++ k.bottom.list, b.amount < amount
  have hct := h.cache.topCap
  have hcb := h.cache.bottomCap
  by_cases ht : k.info.topCap = .full
  · rw [if_pos ht]
    rw [hct, capacity_full] at ht
    by_cases hlow : k.info.lowestTop < amount
    · rw [if_pos hlow]
      refine ⟨fun _ => ?_, fun _ => ⟨_, rfl⟩⟩
      right; right
      rw [h.cache.lowestTop] at hlow
      unfold lowestAmount at hlow
      cases e : k.top.list.getLast? with
      | none =>
        rw [List.getLast?_eq_none_iff] at e
        rw [e] at ht
        have := hcfg.top_pos
        simp at ht
        omega
      | some t =>
        rw [e] at hlow
        exact ⟨t, List.mem_append_left _ (List.mem_of_getLast? e), hlow⟩
    · rw [if_neg hlow]
      by_cases hb : k.info.bottomCap = .full
      · rw [if_pos hb]
        rw [hcb, capacity_full] at hb
        by_cases hlb : amount > k.info.lowestBottom
        · dsimp only
          rw [if_pos hlb]
          refine ⟨fun _ => ?_, fun _ => ⟨_, rfl⟩⟩
          right; right
          rw [h.cache.lowestBottom] at hlb
          unfold lowestAmount at hlb
          cases e : k.bottom.list.getLast? with
          | none =>
            rw [List.getLast?_eq_none_iff] at e
            rw [e] at hb
            have := hcfg.bottom_pos
            simp at hb
            omega
          | some t =>
            rw [e] at hlb
            exact ⟨t, List.mem_append_right _ (List.mem_of_getLast? e), hlb⟩
        · dsimp only
          rw [if_neg hlb]
          constructor
          · rintro ⟨_, e⟩; cases e
          · rintro (e | e | ⟨b, hb', hlt⟩)
            · omega
            · omega
            · rcases List.mem_append.1 hb' with hm | hm
              · have := lowestAmount_le h.shape.topDesc b hm
                rw [← h.cache.lowestTop] at this
                omega
              · have := lowestAmount_le h.shape.botDesc b hm
                rw [← h.cache.lowestBottom] at this
                omega
      · rw [if_neg hb]
        refine ⟨fun _ => ?_, fun _ => ⟨_, rfl⟩⟩
        rw [hcb, capacity_full] at hb
        right; left; omega
  · rw [if_neg ht]
    refine ⟨fun _ => ?_, fun _ => ⟨_, rfl⟩⟩
    rw [hct, capacity_full] at ht
    left; omega

/-- C146: a nomination succeeds exactly when staking is enabled, the nominator has the amount free, it either is new (neither
candidate nor nominator) and nominates at least the minimum total, or has a place left in its own list, does not nominate that
candidate yet and nominates at least the minimum; the candidate exists; the hints are large enough; and there is room. -/
theorem C146_nominate_accepted_iff (P : Par) (hP : P.Sane) (s : St) (hs : Reach P s) (n c amount hintC hintN : Nat) :
    Accepted P s (.nominate n c amount hintC hintN) ↔
      P.enabled = true ∧
      (∃ k, s.cands c = some k ∧ k.top.list.length + k.bottom.list.length ≤ hintC ∧ RoomFor P k amount) ∧
      ((s.noms n = none ∧ s.cands n = none ∧ s.minTotal ≤ amount ∧ amount ≤ s.free n) ∨
       (∃ r, s.noms n = some r ∧ P.minPer ≤ amount ∧ r.noms.length ≤ hintN ∧ r.noms.length < P.maxPer ∧
          (∀ b ∈ r.noms, b.owner ≠ c) ∧ amount ≤ s.free n - r.total)) := by
  have h := (hs.inv hP).g
  have hok := hP.ok
  -- the nominator's side
  have hrec : (¬ s.nomFree n < amount ∧ ∃ r, nominateRecord P s n c amount hintN = some r) ↔
      ((s.noms n = none ∧ s.cands n = none ∧ s.minTotal ≤ amount ∧ amount ≤ s.free n) ∨
       (∃ r, s.noms n = some r ∧ P.minPer ≤ amount ∧ r.noms.length ≤ hintN ∧ r.noms.length < P.maxPer ∧
          (∀ b ∈ r.noms, b.owner ≠ c) ∧ amount ≤ s.free n - r.total)) := by
    unfold nominateRecord St.nomFree
    cases hn : s.noms n with
    | none =>
      dsimp only
      rw [Option.map_none, Option.getD_none, Nat.sub_zero]
      by_cases h1 : amount < s.minTotal
      · rw [if_pos h1]
        constructor
        · rintro ⟨_, _, e⟩; cases e
        · rintro (⟨_, _, e, _⟩ | ⟨_, e, _⟩)
          · omega
          · cases e
      · rw [if_neg h1]
        cases hc : s.cands n with
        | some x => simp
        | none =>
          constructor
          · rintro ⟨e, _⟩; exact Or.inl ⟨rfl, rfl, by omega, by omega⟩
          · rintro (⟨_, _, _, e⟩ | ⟨_, e, _⟩)
            · exact ⟨by omega, _, rfl⟩
            · cases e
    | some r =>
      dsimp only
      rw [Option.map_some, Option.getD_some]
      have hr := h.n.some n r hn
      constructor
      · rintro ⟨e, r', hr'⟩
        right
        by_cases h1 : amount < P.minPer
        · rw [if_pos h1] at hr'; cases hr'
        rw [if_neg h1] at hr'
        by_cases h2 : hintN < r.noms.length
        · rw [if_pos h2] at hr'; cases hr'
        rw [if_neg h2] at hr'
        by_cases h3 : P.maxPer ≤ r.noms.length
        · rw [if_pos h3] at hr'; cases hr'
        rw [if_neg h3] at hr'
        refine ⟨r, rfl, by omega, by omega, by omega, ?_, by omega⟩
        intro b hb heq
        unfold Nomr.add at hr'
        rcases setInsert_cases hr.sorted vecCap ⟨c, amount⟩ with ⟨_, e⟩ | ⟨a, d, hl, ha, hd, _⟩
        · rw [e] at hr'; cases hr'
        · rw [hl] at hb
          rcases List.mem_append.1 hb with hb | hb
          · have := ha b hb; dsimp only at this; omega
          · have := hd b hb; dsimp only at this; omega
      · rintro (⟨e, _⟩ | ⟨r', e, h1, h2, h3, h4, h5⟩)
        · cases e
        · injection e with e
          subst e
          refine ⟨by omega, ?_⟩
          rw [if_neg (by omega), if_neg (by omega), if_neg (by omega)]
          unfold Nomr.add
          have := hok.max
          obtain ⟨l, e⟩ := (insert_new (cap := vecCap) hr.sorted (v := ⟨c, amount⟩) h4).2 (by omega)
          rw [e]
          exact ⟨_, rfl⟩
  rw [← hrec]
  unfold Accepted call nominateCall
  dsimp only
  cases he : P.enabled with
  | false =>
    rw [if_neg (by simp)]
    constructor
    · rintro ⟨_, e⟩; cases e
    · rintro ⟨e, _⟩; cases e
  | true =>
  rw [if_pos rfl]
  unfold nominate
  by_cases hf : s.nomFree n < amount
  · rw [if_pos hf]
    constructor
    · rintro ⟨_, e⟩; cases e
    · rintro ⟨_, _, e, _⟩; exact absurd hf e
  rw [if_neg hf]
  cases hr : nominateRecord P s n c amount hintN with
  | none =>
    constructor
    · rintro ⟨_, e⟩; cases e
    · rintro ⟨_, _, _, r, e⟩; cases e
  | some r' =>
  dsimp only
  cases hk : s.cands c with
  | none =>
    unfold St.cand?
    rw [hk]
    constructor
    · rintro ⟨_, e⟩; cases e
    · rintro ⟨_, ⟨k, e, _⟩, _⟩; cases e
  | some k =>
  rw [cand?_of hk]
  dsimp only
  have hi := h.c.inv c k hk
  have hcount : (k.toCand s.pool).info.count = k.top.list.length + k.bottom.list.length := hi.cache.count
  rw [hcount]
  by_cases hh : hintC < k.top.list.length + k.bottom.list.length
  · rw [if_pos hh]
    constructor
    · rintro ⟨_, e⟩; cases e
    · rintro ⟨_, ⟨k', e, h1, _⟩, _⟩
      injection e with e; subst e; omega
  rw [if_neg hh]
  have hroom := addNomination_room hok (n := n) (amount := amount) hi
  have hrt : (k.toCand s.pool).toRec = k := rfl
  rw [hrt] at hroom
  cases hadd : addNomination P.cfg c (k.toCand s.pool) ⟨n, amount⟩ with
  | error e =>
    rw [hadd] at hroom
    constructor
    · rintro ⟨_, e⟩; cases e
    · rintro ⟨_, ⟨k', e, _, h2⟩, _⟩
      injection e with e; subst e
      obtain ⟨_, e⟩ := hroom.2 h2
      cases e
  | ok res =>
  rw [hadd] at hroom
  obtain ⟨k', inTop, less⟩ := res
  dsimp only
  obtain ⟨_, _, htot, hcase⟩ := nominateRecord_ok hok h hP.per.1 hr
  have hfresh : ∀ a, ¬ HasN s.noms n c a := by
    rintro a ⟨r0, h0, h1⟩
    rcases hcase with ⟨h2, _⟩ | ⟨r1, h2, _, h3, _⟩
    · rw [h2] at h0; cases h0
    · rw [h2] at h0; injection h0 with h0; subst h0; exact h3 _ h1 rfl
  have hb : ∀ x ∈ (k.toCand s.pool).entries, x.owner ≠ n := by
    intro x hx e
    have : HasC s.cands c n x.amount := ⟨k, hk, by rw [← e]; exact hx⟩
    exact hfresh _ ((h.link n c x.amount).1 this)
  obtain ⟨_, _, _, kk, hkick, _, hkb, _⟩ := addNomination_ok hok.cfg hi (b := ⟨n, amount⟩) hb hadd
  have hkick' : k'.kicked = kk.toList := by rw [hkick]; rfl
  have hkeep : (k'.kicked.foldl (fun s b => kickOne s c b) (s.putCand c k')).nomFree n = s.nomFree n := by
    refine kept_by_kick (s := s) (t := s.putCand c k') k'.kicked hok h.n ?_ ?_ ⟨rfl, rfl⟩
    · rw [hkick']; cases kk <;> simp
    · intro x hx
      rw [hkick'] at hx
      have hx' : x ∈ (k.toCand s.pool).entries := List.mem_append_right _ (hkb x (by simpa using hx))
      exact ⟨(h.link _ _ _).1 ⟨k, hk, hx'⟩, hb x hx'⟩
  rw [hkeep, if_neg (by omega)]
  exact ⟨fun _ => ⟨rfl, ⟨k, rfl, by omega, hroom.1 ⟨_, rfl⟩⟩, hf, _, rfl⟩, fun _ => ⟨_, rfl⟩⟩

/-- C146: an existing nomination can be increased by anything that is free, unless its revocation is scheduled. -/
theorem C146_bond_extra_accepted_iff (P : Par) (hP : P.Sane) (s : St) (hs : Reach P s) (n c more : Nat) :
    Accepted P s (.bondExtra n c more) ↔
      P.enabled = true ∧ (∀ q ∈ s.reqs c, q.nominator = n → q.revoke = false) ∧
      ∃ r a, s.noms n = some r ∧ (⟨c, a⟩ : Bond) ∈ r.noms ∧ more ≤ s.free n - r.total := by
  have h := (hs.inv hP).g
  have hrev : (revokePending s c n = true) ↔ ¬ (∀ q ∈ s.reqs c, q.nominator = n → q.revoke = false) := by
    unfold revokePending
    rw [List.any_eq_true]
    constructor
    · rintro ⟨q, hq, e⟩ hall
      simp [Req.by] at e
      have := hall q hq e.1
      rw [this] at e
      simp at e
    · intro hall
      push Not at hall
      obtain ⟨q, hq, e1, e2⟩ := hall
      exact ⟨q, hq, by simp [Req.by, e1]; simpa using e2⟩
  unfold Accepted call bondExtraCall
  dsimp only
  cases he : P.enabled with
  | false =>
    rw [if_neg (by simp)]
    constructor
    · rintro ⟨_, e⟩; cases e
    · rintro ⟨e, _⟩; cases e
  | true =>
  rw [if_pos rfl]
  unfold bondExtra
  by_cases hp : revokePending s c n = true
  · rw [if_pos hp]
    constructor
    · rintro ⟨_, e⟩; cases e
    · rintro ⟨_, e, _⟩; exact absurd e (hrev.1 hp)
  rw [if_neg hp]
  have hall : ∀ q ∈ s.reqs c, q.nominator = n → q.revoke = false := Decidable.of_not_not (fun e => hp (hrev.2 e))
  cases hn : s.noms n with
  | none =>
    constructor
    · rintro ⟨_, e⟩; cases e
    · rintro ⟨_, _, r, a, e, _⟩; cases e
  | some r =>
  dsimp only
  have hfree : s.nomFree n = s.free n - r.total := by unfold St.nomFree; rw [hn]; rfl
  cases hb : findOwner r.noms c with
  | none =>
    constructor
    · rintro ⟨_, e⟩; cases e
    · rintro ⟨_, _, r', a, e, hm, _⟩
      injection e with e; subst e
      exact absurd rfl (findOwner_none hb _ hm)
  | some b =>
  dsimp only
  obtain ⟨hbm, hbo⟩ := findOwner_some hb
  obtain ⟨bo, a⟩ := b
  dsimp only at hbo
  subst hbo
  rw [hfree]
  by_cases hf : s.free n - r.total < more ∨ r.total + more < more
  · rw [if_pos hf]
    constructor
    · rintro ⟨_, e⟩; cases e
    · rintro ⟨_, _, r', a', e, _, hle⟩
      injection e with e; subst e; omega
  rw [if_neg hf]
  obtain ⟨k, hk, hC⟩ := (h.link n bo a).2 ⟨r, hn, hbm⟩
  rw [cand?_of hk]
  dsimp only
  obtain ⟨k', t, e, _⟩ := increaseNomination_ok hP.ok.cfg (h.c.inv bo k hk) (d := ⟨n, a⟩) hC more
  dsimp only at e
  rw [e]
  exact ⟨fun _ => ⟨rfl, hall, r, a, rfl, hbm, by omega⟩, fun _ => ⟨_, rfl⟩⟩

/-- C146: a nominator can cancel its own scheduled request at any time. -/
theorem C146_cancel_request_accepted_iff (P : Par) (hP : P.Sane) (s : St) (hs : Reach P s) (n c : Nat) :
    Accepted P s (.cancelRequest n c) ↔ ∃ q ∈ s.reqs c, q.nominator = n := by
  have h := (hs.inv hP).g
  unfold Accepted call cancelRequest
  dsimp only
  constructor
  · rintro ⟨s', e⟩
    cases hn : s.noms n with
    | none => rw [hn] at e; cases e
    | some r =>
      rw [hn] at e
      dsimp only at e
      cases hq : findReq (s.reqs c) n with
      | none => rw [hq] at e; cases e
      | some q =>
        obtain ⟨h1, h2⟩ := findReq_some hq
        exact ⟨q, h1, h2⟩
  · rintro ⟨q, hq, e⟩
    obtain ⟨r, b, h1, _⟩ := h.n.req c q hq
    rw [e] at h1
    rw [h1, ← e, findReq_mem (h.n.uniq c) hq]
    exact ⟨_, rfl⟩

/-- C146: a recorded revoke of everything is executed from its era on: a nominator with only revocations due can leave, whatever
the minimum stake is, with a large enough hint; and nobody else. -/
theorem C146_leave_nominators_accepted_iff (P : Par) (s : St) (n hint : Nat) (hu : Reach P s) (hP : P.Sane) :
    Accepted P s (.executeRevokeAll n hint) ↔
      ∃ r, s.noms n = some r ∧ r.noms.length ≤ hint ∧
        ∀ b ∈ r.noms, ∃ q ∈ s.reqs b.owner, q.nominator = n ∧ q.revoke = true ∧ q.due ≤ s.era := by
  have h := (hu.inv hP).g
  unfold Accepted call executeRevokeAll
  dsimp only
  cases hn : s.noms n with
  | none => simp
  | some r =>
  dsimp only
  by_cases hh : hint < r.noms.length
  · rw [if_pos hh]
    constructor
    · rintro ⟨_, e⟩; cases e
    · rintro ⟨r', e, hle, _⟩; injection e with e; subst e; omega
  rw [if_neg hh]
  have hall : r.noms.all (revokeDue s.reqs s.era n) = true ↔
      ∀ b ∈ r.noms, ∃ q ∈ s.reqs b.owner, q.nominator = n ∧ q.revoke = true ∧ q.due ≤ s.era := by
    rw [List.all_eq_true]
    refine forall_congr' fun b => forall_congr' fun hb => ?_
    unfold revokeDue
    constructor
    · intro e
      cases hf : (s.reqs b.owner).find? (fun q => Req.by n q && q.revoke) with
      | none => rw [hf] at e; cases e
      | some q =>
        rw [hf] at e
        have h1 := List.find?_some hf
        simp [Req.by] at h1
        exact ⟨q, List.mem_of_find?_eq_some hf, h1.1, h1.2, by simpa using e⟩
    · rintro ⟨q, hq, e1, e2, e3⟩
      cases hf : (s.reqs b.owner).find? (fun q => Req.by n q && q.revoke) with
      | none =>
        have := List.find?_eq_none.1 hf q hq
        simp [Req.by, e1, e2] at this
      | some q' =>
        have h1 := List.find?_some hf
        simp [Req.by] at h1
        have : q' = q := RUniq.eq (h.n.uniq b.owner) (List.mem_of_find?_eq_some hf) hq (h1.1.trans e1.symm)
        subst this
        simpa using e3
  by_cases ha : r.noms.all (revokeDue s.reqs s.era n) = true
  · rw [if_pos ha]
    exact ⟨fun _ => ⟨r, rfl, by omega, hall.1 ha⟩, fun _ => ⟨_, rfl⟩⟩
  · rw [if_neg ha]
    constructor
    · rintro ⟨_, e⟩; cases e
    · rintro ⟨r', e, _, hle⟩; injection e with e; subst e; exact absurd (hall.2 hle) ha

/-- C146: asking to revoke a nomination is accepted exactly when there is one and no request towards that collator is pending (but
see C46: with a full list it has no effect). -/
theorem C146_schedule_revoke_accepted_iff (P : Par) (s : St) (n c : Nat) :
    Accepted P s (.scheduleRevoke n c) ↔ NoRequest s n c ∧ ∃ r, s.noms n = some r ∧ ∃ b ∈ r.noms, b.owner = c := by
  have hany : (s.reqs c).any (Req.by n) = true ↔ ¬ NoRequest s n c := by
    rw [← Bool.not_eq_false, not_iff_not]; exact any_by
  unfold Accepted call scheduleRevoke
  dsimp only
  cases hn : s.noms n with
  | none => simp
  | some r =>
  dsimp only
  by_cases ha : (s.reqs c).any (Req.by n) = true
  · rw [if_pos ha]
    constructor
    · rintro ⟨_, e⟩; cases e
    · rintro ⟨e, _⟩; exact absurd e (hany.1 ha)
  rw [if_neg ha]
  have hno : NoRequest s n c := Classical.not_not.1 (fun e => ha (hany.2 e))
  cases hb : findOwner r.noms c with
  | none =>
    constructor
    · rintro ⟨_, e⟩; cases e
    · rintro ⟨_, r', e, b, hm, ho⟩; injection e with e; subst e; exact absurd ho (findOwner_none hb b hm)
  | some b =>
    obtain ⟨h1, h2⟩ := findOwner_some hb
    refine ⟨fun _ => ⟨hno, r, rfl, b, h1, h2⟩, fun _ => ?_⟩
    dsimp only
    by_cases hl : (s.reqs c).length < P.maxPer
    · rw [if_pos hl]; exact ⟨_, rfl⟩
    · rw [if_neg hl]; exact ⟨_, rfl⟩

/-- C146: asking to decrease a nomination is accepted exactly when there is one, no request towards that collator is pending, the
nomination keeps at least the minimum, and the nominator keeps at least the minimum total even after everything else it has
asked for. -/
theorem C146_schedule_decrease_accepted_iff (P : Par) (hP : P.Sane) (s : St) (hs : Reach P s) (n c less : Nat) :
    Accepted P s (.scheduleDecrease n c less) ↔
      NoRequest s n c ∧ ∃ r a, s.noms n = some r ∧ (⟨c, a⟩ : Bond) ∈ r.noms ∧ less < a ∧ P.minPer + less ≤ a ∧
        less ≤ r.total - r.less - s.minTotal := by
  have h := (hs.inv hP).g
  have hany : (s.reqs c).any (Req.by n) = true ↔ ¬ NoRequest s n c := by
    rw [← Bool.not_eq_false, not_iff_not]; exact any_by
  unfold Accepted call scheduleDecrease
  dsimp only
  cases hn : s.noms n with
  | none => simp
  | some r =>
  dsimp only
  by_cases ha : (s.reqs c).any (Req.by n) = true
  · rw [if_pos ha]
    constructor
    · rintro ⟨_, e⟩; cases e
    · rintro ⟨e, _⟩; exact absurd e (hany.1 ha)
  rw [if_neg ha]
  have hno : NoRequest s n c := Classical.not_not.1 (fun e => ha (hany.2 e))
  cases hb : findOwner r.noms c with
  | none =>
    constructor
    · rintro ⟨_, e⟩; cases e
    · rintro ⟨_, r', a, e, hm, _⟩; injection e with e; subst e; exact absurd rfl (findOwner_none hb _ hm)
  | some b =>
    obtain ⟨h1, h2⟩ := findOwner_some hb
    obtain ⟨bo, a⟩ := b
    dsimp only at h2
    subst h2
    have huniq : ∀ a', (⟨bo, a'⟩ : Bond) ∈ r.noms → a' = a := fun a' hm => by
      have := (h.n.some n r hn).sorted.uniq.eq hm h1 rfl
      injection this
    dsimp only
    by_cases h3 : a ≤ less
    · rw [if_pos h3]
      constructor
      · rintro ⟨_, e⟩; cases e
      · rintro ⟨_, r', a', e, hm, g1, _⟩; injection e with e; subst e; have := huniq a' hm; omega
    rw [if_neg h3]
    by_cases h4 : a - less < P.minPer
    · rw [if_pos h4]
      constructor
      · rintro ⟨_, e⟩; cases e
      · rintro ⟨_, r', a', e, hm, _, g1, _⟩; injection e with e; subst e; have := huniq a' hm; omega
    rw [if_neg h4]
    by_cases h5 : r.total - r.less - s.minTotal < less
    · rw [if_pos h5]
      constructor
      · rintro ⟨_, e⟩; cases e
      · rintro ⟨_, r', a', e, hm, _, _, g1⟩; injection e with e; subst e; omega
    rw [if_neg h5]
    refine ⟨fun _ => ⟨hno, r, a, rfl, h1, by omega, by omega, by omega⟩, fun _ => ?_⟩
    by_cases hl : (s.reqs bo).length < P.maxPer
    · rw [if_pos hl]; exact ⟨_, rfl⟩
    · rw [if_neg hl]; exact ⟨_, rfl⟩

/-- C146: a recorded request is executed exactly when its era has come and the nominator keeps at least the minimum total, or
leaves altogether by revoking its only nomination. -/
theorem C146_execute_request_accepted_iff (P : Par) (hP : P.Sane) (s : St) (hs : Reach P s) (n c : Nat) :
    Accepted P s (.executeRequest n c) ↔
      ∃ q ∈ s.reqs c, q.nominator = n ∧ q.due ≤ s.era ∧ ∃ r, s.noms n = some r ∧
        ((q.revoke = true ∧ r.noms.length = 1) ∨ s.minTotal + q.amount ≤ r.total) := by
  have h := (hs.inv hP).g
  constructor
  · rintro ⟨s', e⟩
    obtain ⟨q, he⟩ := executeRequest_ok hP.ok h e
    refine ⟨q, he.mem, he.by_, he.due, ?_⟩
    unfold call executeRequest at e
    dsimp only at e
    cases hn : s.noms n with
    | none => rw [hn] at e; cases e
    | some r =>
    rw [hn] at e
    dsimp only at e
    have hf : findReq (s.reqs c) n = some q := by
      have := findReq_mem (h.n.uniq c) he.mem
      rw [he.by_] at this; exact this
    obtain ⟨r0, b, g1, g2, g3, g4, g5⟩ := h.n.req c q he.mem
    rw [he.by_, hn] at g1
    injection g1 with g1
    subst g1
    have htot : b.amount ≤ r.total := by
      rw [(h.n.some n r hn).total, sum_without (h.n.some n r hn).sorted.uniq g2]; omega
    rw [hf] at e
    dsimp only at e
    rw [if_neg (by have := he.due; omega)] at e
    refine ⟨r, rfl, ?_⟩
    cases hr : q.revoke with
    | true =>
      rw [hr, if_pos rfl] at e
      unfold executeRevoke at e
      by_cases hm : r.noms.length ≠ 1 ∧ r.total - s.minTotal < q.amount
      · rw [if_pos hm] at e; cases e
      · by_cases h1 : r.noms.length = 1
        · exact Or.inl ⟨rfl, h1⟩
        · right
          have hpos : 1 ≤ q.amount := by
            rw [g4 hr]; exact Nat.le_trans hP.min ((h.n.some n r hn).min b g2)
          have : ¬ (r.total - s.minTotal < q.amount) := fun e => hm ⟨h1, e⟩
          omega
    | false =>
      right
      rw [hr, if_neg (by simp)] at e
      unfold executeDecrease at e
      cases hb : findOwner r.noms c with
      | none => rw [hb] at e; cases e
      | some b' =>
      rw [hb] at e
      dsimp only at e
      by_cases k1 : b'.amount ≤ q.amount
      · rw [if_pos k1] at e; cases e
      rw [if_neg k1] at e
      cases hk : s.cand? c with
      | none => rw [hk] at e; cases e
      | some k =>
      rw [hk] at e
      dsimp only at e
      by_cases k2 : r.total - q.amount < P.minPer
      · rw [if_pos k2] at e; cases e
      rw [if_neg k2] at e
      by_cases k3 : r.total - q.amount < s.minTotal
      · rw [if_pos k3] at e; cases e
      have := g5 hr
      omega
  · rintro ⟨q, hq, hn, hdue, r, hr, hmin⟩
    exact executeRequest_succeeds hP.ok h hq hn hdue hr hmin

/-- C146: scheduled revocations of everything can be taken back exactly while every nomination has one. -/
theorem C146_cancel_leave_nominators_accepted_iff (P : Par) (s : St) (n : Nat) :
    Accepted P s (.cancelRevokeAll n) ↔
      ∃ r, s.noms n = some r ∧ ∀ b ∈ r.noms, ∃ q ∈ s.reqs b.owner, q.nominator = n ∧ q.revoke = true := by
  unfold Accepted call cancelRevokeAll
  dsimp only
  cases hn : s.noms n with
  | none => simp
  | some r =>
  have hall : r.noms.all (hasRevoke s.reqs n) = true ↔
      ∀ b ∈ r.noms, ∃ q ∈ s.reqs b.owner, q.nominator = n ∧ q.revoke = true := by
    rw [List.all_eq_true]
    refine forall_congr' fun b => forall_congr' fun _ => ?_
    unfold hasRevoke Req.by
    simp
  dsimp only
  by_cases ha : r.noms.all (hasRevoke s.reqs n) = true
  · rw [if_pos ha]; exact ⟨fun _ => ⟨r, rfl, hall.1 ha⟩, fun _ => ⟨_, rfl⟩⟩
  · rw [if_neg ha]
    constructor
    · rintro ⟨_, e⟩; cases e
    · rintro ⟨r', e, hle⟩; injection e with e; subst e; exact absurd (hall.2 hle) ha

private theorem cancel_other (w : Sweep) (n c d : Nat) (h : d ≠ c) : ((w.cancel n c).1).reqs d = w.reqs d := by
  unfold Sweep.cancel
  split
  · rfl
  · exact upd_ne _ _ h

private theorem cancel_count (w : Sweep) (n c : Nat) : ((w.cancel n c).1).count = w.count := by
  unfold Sweep.cancel
  split <;> rfl

private theorem cancel_req (w : Sweep) (n c : Nat) : (w.cancel n c).2 = findReq (w.reqs c) n := by
  unfold Sweep.cancel
  split
  · rename_i h; exact h.symm
  · rename_i q h; exact h.symm

private theorem revokeAllStep_other (P : Par) (n due : Nat) (w : Sweep) (b : Bond) (d : Nat) (h : d ≠ b.owner) :
    (revokeAllStep P n due w b).reqs d = w.reqs d := by
  unfold revokeAllStep
  dsimp only
  split
  · dsimp only
    rw [upd_ne _ _ h]
    exact cancel_other w n b.owner d h
  · rfl

private theorem revokeAllStep_count (P : Par) (n due : Nat) (w : Sweep) (b : Bond) (u : RUniq (w.reqs b.owner)) :
    (revokeAllStep P n due w b).count = w.count + if hasRevoke w.reqs n b = true then 1 else 0 := by
  have e1 : (revokeAllStep P n due w b).count =
      if ((findReq (w.reqs b.owner) n).filter Req.revoke).isSome then w.count + 1 else w.count := by
    unfold revokeAllStep
    dsimp only
    rw [cancel_req, cancel_count]
    split <;> rfl
  have e2 : ((findReq (w.reqs b.owner) n).filter Req.revoke).isSome = true ↔ hasRevoke w.reqs n b = true := by
    unfold hasRevoke
    rw [List.any_eq_true]
    constructor
    · intro h
      cases hf : findReq (w.reqs b.owner) n with
      | none => rw [hf] at h; cases h
      | some q =>
        rw [hf] at h
        obtain ⟨h1, h2⟩ := findReq_some hf
        refine ⟨q, h1, ?_⟩
        by_cases hr : q.revoke = true
        · simp [Req.by, h2, hr]
        · simp [Option.filter, hr] at h
    · rintro ⟨q, hq, e⟩
      simp [Req.by] at e
      have := findReq_mem u hq
      rw [e.1] at this
      rw [this]
      simp [Option.filter, e.2]
  rw [e1]
  by_cases hr : hasRevoke w.reqs n b = true
  · rw [if_pos hr, if_pos (e2.2 hr)]
  · rw [if_neg hr, if_neg (fun h => hr (e2.1 h))]; rfl

private theorem revokeAll_count (P : Par) (n due : Nat) (l : List Bond) : ∀ w : Sweep, (∀ c, RUniq (w.reqs c) ∨ ∀ b ∈ l, b.owner ≠ c) →
    (l.map Bond.owner).Nodup →
    (l.foldl (revokeAllStep P n due) w).count = w.count + l.countP (hasRevoke w.reqs n) := by
  induction l with
  | nil => intro w _ _; rfl
  | cons b l ih =>
    intro w hu hd
    have hd' : b.owner ∉ l.map Bond.owner ∧ (l.map Bond.owner).Nodup := List.nodup_cons.1 hd
    have hne : ∀ x ∈ l, x.owner ≠ b.owner := fun x hx e => hd'.1 (e ▸ List.mem_map_of_mem hx)
    rw [List.foldl_cons, ih]
    · have ub : RUniq (w.reqs b.owner) := by
        rcases hu b.owner with h | h
        · exact h
        · exact absurd rfl (h b (List.mem_cons_self ..))
      rw [revokeAllStep_count P n due w b ub, List.countP_cons]
      have : l.countP (hasRevoke (revokeAllStep P n due w b).reqs n) = l.countP (hasRevoke w.reqs n) := by
        refine List.countP_congr fun x hx => ?_
        unfold hasRevoke
        rw [revokeAllStep_other P n due w b x.owner (hne x hx)]
      rw [this]
      omega
    · intro c
      by_cases hc : c = b.owner
      · subst hc; exact Or.inr hne
      · rw [revokeAllStep_other P n due w b c hc]
        rcases hu c with h | h
        · exact Or.inl h
        · exact Or.inr fun x hx => h x (List.mem_cons_of_mem _ hx)
    · exact hd'.2

/-- C146: leaving all nominations can be asked for exactly while one of them has no revocation yet (but see C46: nominations with a
candidate whose list of requests is full get none). -/
theorem C146_schedule_leave_nominators_accepted_iff (P : Par) (hP : P.Sane) (s : St) (hs : Reach P s) (n : Nat) :
    Accepted P s (.revokeAll n) ↔
      ∃ r, s.noms n = some r ∧ ∃ b ∈ r.noms, ∀ q ∈ s.reqs b.owner, q.nominator = n → q.revoke = false := by
  have h := (hs.inv hP).g
  unfold Accepted call revokeAll
  dsimp only
  cases hn : s.noms n with
  | none => simp
  | some r =>
  dsimp only
  have hc := revokeAll_count P n (s.era + s.delay) r.noms ⟨s.reqs, r.less, 0⟩ (fun c => Or.inl (h.n.uniq c))
    (by rw [List.nodup_iff_pairwise_ne, List.pairwise_map]; exact (h.n.some n r hn).sorted.imp fun x => Nat.ne_of_lt x)
  rw [hc]
  dsimp only
  have hall : r.noms.countP (hasRevoke s.reqs n) = r.noms.length ↔ ∀ b ∈ r.noms, hasRevoke s.reqs n b = true := List.countP_eq_length
  by_cases ha : 0 + r.noms.countP (hasRevoke s.reqs n) = r.noms.length
  · rw [if_pos ha]
    constructor
    · rintro ⟨_, e⟩; cases e
    · rintro ⟨r', e, b, hb, hq⟩
      injection e with e; subst e
      have := hall.1 (by omega) b hb
      unfold hasRevoke at this
      obtain ⟨q, h1, h2⟩ := List.any_eq_true.1 this
      simp [Req.by] at h2
      have := hq q h1 h2.1
      rw [this] at h2
      cases h2.2
  · rw [if_neg ha]
    refine ⟨fun _ => ⟨r, rfl, ?_⟩, fun _ => ⟨_, rfl⟩⟩
    by_contra hcon
    refine ha ?_
    rw [Nat.zero_add, hall]
    intro b hb
    by_contra hb'
    refine hcon ⟨b, hb, fun q hq e => ?_⟩
    cases hr : q.revoke with
    | false => rfl
    | true => exact absurd (List.any_eq_true.2 ⟨q, hq, by simp [Req.by, e, hr]⟩) hb'

/-! ### The hypotheses are met -/

private def liveDemo : St := run smallPar (St.init 2 5 10 (fun a => if a = 9 then 3 else 1000))
  [.join 1 10 10 true, .nominate 2 1 50 10 10, .nominate 3 1 20 10 10, .nominate 4 1 30 10 10]

example : Reach smallPar liveDemo := ⟨_, _, _, _, _, by decide, rfl⟩

example : (call smallPar liveDemo (.nominate 5 1 20 10 10)).isSome = false ∧
    (call smallPar liveDemo (.nominate 5 1 21 10 10)).isSome = true ∧
    (call smallPar liveDemo (.bondExtra 3 1 980)).isSome = true ∧ (call smallPar liveDemo (.bondExtra 3 1 981)).isSome = false ∧
    (call smallPar liveDemo (.join 9 10 10 true)).isSome = false ∧ (call smallPar liveDemo (.join 8 10 10 true)).isSome = true := by
  decide +kernel

example : (call smallPar (run smallPar liveDemo [.scheduleLeave 1 10, .newEra, .newEra]) (.executeLeave 1 3)).isSome = true ∧
    (call smallPar (run smallPar liveDemo [.scheduleLeave 1 10, .newEra]) (.executeLeave 1 3)).isSome = false ∧
    (call smallPar (run smallPar liveDemo [.revokeAll 2, .newEra, .newEra]) (.executeRevokeAll 2 1)).isSome = true := by
  decide +kernel

example : (call smallPar liveDemo (.revokeAll 2)).isSome = true ∧
    (call smallPar (run smallPar liveDemo [.revokeAll 2]) (.revokeAll 2)).isSome = false ∧
    (call smallPar (run smallPar liveDemo [.scheduleDecrease 2 1 20]) (.revokeAll 2)).isSome = true := by
  decide +kernel

end Verif.Staking
