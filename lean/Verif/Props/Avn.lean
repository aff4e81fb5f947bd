import Verif.Lemmas.Avn
import Mathlib.Data.List.Perm.Subperm

/-!
# Properties of the AvN pallet: C23, C24, C25, C26, C28
-/

namespace Verif.Avn

/-! ## C24 quorum arithmetic -/

/-- **C24.** `required_for n` is the least `k` with `3k ≥ n` (i.e. ⌈n/3⌉), `required_for_supermajority n` is ⌊2n/3⌋,
they add up to `n`, and quorum is positive for a non-empty validator set. -/
theorem C24_quorum_is_ceil_third (n : Nat) :
    (n ≤ 3 * requiredFor n ∧ ∀ k, n ≤ 3 * k → requiredFor n ≤ k) ∧
    (3 * requiredForSupermajority n ≤ 2 * n ∧ ∀ k, 3 * k ≤ 2 * n → k ≤ requiredForSupermajority n) ∧
    requiredFor n + requiredForSupermajority n = n ∧ (0 < n → 0 < requiredFor n) := by
  unfold requiredFor requiredForSupermajority
  refine ⟨⟨by omega, fun k hk => by omega⟩, ⟨by omega, fun k hk => by omega⟩, by omega, by omega⟩

/-- **C24.** For `n = 3` or `n ≥ 5` validators any two supermajority groups (duplicate-free lists of members of the validator
set `V`) share a member. -/
theorem C24_supermajorities_intersect (V A B : List Nat) (hn : V.length = 3 ∨ 5 ≤ V.length)
    (hA : A.Nodup) (hB : B.Nodup) (hAV : ∀ a ∈ A, a ∈ V) (hBV : ∀ b ∈ B, b ∈ V)
    (hAq : requiredForSupermajority V.length ≤ A.length)
    (hBq : requiredForSupermajority V.length ≤ B.length) : ∃ x, x ∈ A ∧ x ∈ B := by
  by_contra hno
  have hdis : (A ++ B).Nodup := by
    rw [List.nodup_append]
    refine ⟨hA, hB, fun a ha b hb hab => hno ⟨a, ha, hab ▸ hb⟩⟩
  have hsub : (A ++ B).Subperm V := hdis.subperm (by
    intro x hx; rcases List.mem_append.mp hx with h | h
    · exact hAV x h
    · exact hBV x h)
  have hlen := hsub.length_le
  rw [List.length_append] at hlen
  unfold requiredForSupermajority at hAq hBq
  omega

/-- **C24 (boundary).** With exactly four validators two disjoint pairs are both "supermajorities". -/
theorem C24_supermajorities_disjoint_at_four :
    ∃ V A B : List Nat, V.length = 4 ∧ V.Nodup ∧ A.Nodup ∧ B.Nodup ∧ (∀ a ∈ A, a ∈ V) ∧ (∀ b ∈ B, b ∈ V) ∧
      requiredForSupermajority V.length ≤ A.length ∧ requiredForSupermajority V.length ≤ B.length ∧
      ∀ x, x ∈ A → x ∉ B :=
  ⟨[0, 1, 2, 3], [0, 1], [2, 3], by decide⟩

/-- **C24.** A quorum and any group larger than the supermajority share a member: whatever a quorum accepts, more than
⌊2n/3⌋ validators cannot all have missed. -/
theorem C24_quorum_meets_larger_than_supermajority (V A B : List Nat) (hA : A.Nodup) (hB : B.Nodup)
    (hAV : ∀ a ∈ A, a ∈ V) (hBV : ∀ b ∈ B, b ∈ V) (hAq : requiredFor V.length ≤ A.length)
    (hBq : requiredForSupermajority V.length < B.length) : ∃ x, x ∈ A ∧ x ∈ B := by
  by_contra hno
  have hdis : (A ++ B).Nodup := by
    rw [List.nodup_append]
    exact ⟨hA, hB, fun a ha b hb hab => hno ⟨a, ha, hab ▸ hb⟩⟩
  have hsub : (A ++ B).Subperm V := hdis.subperm (by
    intro x hx; rcases List.mem_append.mp hx with h | h
    · exact hAV x h
    · exact hBV x h)
  have hlen := hsub.length_le
  rw [List.length_append] at hlen
  unfold requiredFor at hAq
  unfold requiredForSupermajority at hBq
  omega

/-- **C24.** Within the validator bound the `u32` intermediate `num * 2` does not overflow. -/
theorem C24_no_overflow (n : Nat) (h : n ≤ maxValidators) : n * 2 < pow32 := by
  unfold maxValidators at h; unfold pow32; omega

example : ∃ V A B : List Nat, V.length = 5 ∧ A.Nodup ∧ B.Nodup ∧ (∀ a ∈ A, a ∈ V) ∧ (∀ b ∈ B, b ∈ V) ∧
    requiredForSupermajority V.length ≤ A.length ∧ requiredForSupermajority V.length ≤ B.length :=
  ⟨[0, 1, 2, 3, 4], [0, 1, 2], [2, 3, 4], by decide⟩

/-! ## C25 rotation of the sender -/

/-- **C25.** For any validator list of length between 1 and 255 and *any* stored counter, `len` consecutive assignments
succeed and assign the duty to every validator position exactly once (the assigned accounts are a rotation of the list). -/
theorem C25_rotation_is_fair (s : State) (h0 : s.validators ≠ []) (hlt : s.validators.length < 256) :
    ∃ as s', runAdvance s.validators.length s = .ok (as, s') ∧
      as.Perm (s.validators.map Validator.account) ∧ s'.validators = s.validators := by
  have hpos : 0 < s.validators.length := List.length_pos_iff.mpr h0
  obtain ⟨k, hk⟩ : ∃ k, s.validators.length = k + 1 := ⟨s.validators.length - 1, by omega⟩
  -- after the first assignment the index is in range
  obtain ⟨v, hv, hadv⟩ := advance_ok s h0 hlt
  have hrun := run_from k { s with primaryIndex := (min (s.primaryIndex + 1) 255) % s.validators.length }
    h0 hlt (Nat.mod_lt _ hpos)
  obtain ⟨s', hs', hval⟩ := hrun
  let i := (min (s.primaryIndex + 1) 255) % s.validators.length
  refine ⟨(s.validators.rotate i).map Validator.account, s', ?_, ?_, hval⟩
  · rw [hk, runAdvance, hadv]
    simp only [hs']
    rw [← range_rotate, hk, List.range_succ_eq_map, List.map_cons, List.map_map]
    have hi : i < s.validators.length := Nat.mod_lt _ hpos
    have h00 : (i + 0) % (k + 1) = i := by rw [← hk, Nat.add_zero, Nat.mod_eq_of_lt hi]
    simp only [h00]
    rw [show s.validators[i]? = some v from hv]
    simp only [Option.map_some, Option.getD_some]
    congr 3
    apply List.map_congr_left
    intro j _
    simp only [Function.comp]
    have hij : i + j.succ = min (s.primaryIndex + 1) 255 % s.validators.length + 1 + j := by
      show i + (j + 1) = i + 1 + j; omega
    rw [hij, hk]
  · exact (List.rotate_perm _ _).map _

/-- **C25.** Whoever is assigned is a current validator, whatever the list and the counter. -/
theorem C25_assigned_is_validator (s : State) (a : Nat) (s' : State) (h : advancePrimary s = .ok (a, s')) :
    ∃ v ∈ s.validators, v.account = a := by
  simp only [advancePrimary] at h
  split at h
  · cases h
  · split at h
    · cases h
    · split at h
      · rename_i v hv
        cases h
        exact ⟨v, List.mem_of_getElem? hv, rfl⟩
      · cases h

/-- **C25.** The sender read back for a new request is a current validator as well. -/
theorem C25_primary_is_validator (s : State) (a : Nat) (s' : State) (h : getPrimary s = .ok (a, s')) :
    (∃ v ∈ s.validators, v.account = a) ∧ s'.validators = s.validators := by
  simp only [getPrimary] at h
  split at h
  · cases h
  · split at h
    · rename_i v hv
      cases h
      have hval : (if s.primaryIndex ≥ s.validators.length then { s with primaryIndex := 0 } else s).validators
          = s.validators := by split <;> rfl
      rw [hval] at hv
      exact ⟨⟨v, List.mem_of_getElem? hv, rfl⟩, hval⟩
    · cases h

/-- **C25 (boundary, finding F6).** With the maximum of 256 validators the assignment always panics
(`256 as u8 = 0`, division by zero). -/
theorem C25_panics_at_256 (s : State) (h : s.validators.length = 256) : advancePrimary s = .error .panic := by
  have h0 : s.validators ≠ [] := by intro h'; rw [h'] at h; simp at h
  simp [advancePrimary, h0, h]

/-- **C25.** The per-block primary rotates in the same way: over `len` consecutive blocks every validator position is primary once. -/
theorem C25_block_primary_rotates (vs : List Validator) (h0 : vs ≠ []) (b : Nat) :
    ∃ as, (List.range vs.length).mapM (fun j => (primaryForBlock vs (b + j)).toOption) = some as ∧
      as.Perm (vs.map Validator.account) := by
  refine ⟨(vs.rotate b).map Validator.account, ?_, (List.rotate_perm _ _).map _⟩
  have hpos : 0 < vs.length := List.length_pos_iff.mpr h0
  have hval : ∀ j, (primaryForBlock vs (b + j)).toOption =
      some (((vs[(b + j) % vs.length]?).map Validator.account).getD 0) := by
    intro j
    have hm : (b + j) % vs.length < vs.length := Nat.mod_lt _ hpos
    simp [primaryForBlock, h0, List.getElem?_eq_getElem hm, Except.toOption]
  rw [← range_rotate]
  simp only [hval]
  generalize List.range vs.length = l
  induction l with
  | nil => rfl
  | cons x xs ih => simp [List.mapM_cons, ih]

example : ∃ s : State, s.validators ≠ [] ∧ s.validators.length < 256 ∧ s.primaryIndex = 250 :=
  ⟨⟨[⟨1, 11⟩, ⟨2, 12⟩, ⟨3, 13⟩], 250⟩, by decide⟩

/-! ## C26 voting sessions -/

/-- One event of a voting history: a cast vote (with the validator list and activity flag of that moment) -/
structure VoteOp where
  validators : List Validator
  active : Bool
  voter : Nat
  approve : Bool

/-- A failing vote leaves the session as it was (extrinsic rollback). -/
def applyVote (s : Session) (o : VoteOp) : Session :=
  match castVote o.validators o.active s o.voter o.approve with
  | .ok s' => s'
  | .error _ => s

def runVotes (s : Session) (ops : List VoteOp) : Session := ops.foldl applyVote s

/-- What an accepted vote does: it needs a current validator, an active session and a fresh voter, and it appends exactly this voter
to exactly one side. -/
theorem C26_accepted_vote (vs : List Validator) (active : Bool) (s s' : Session) (a : Nat) (ap : Bool)
    (h : castVote vs active s a ap = .ok s') :
    (∃ v ∈ vs, v.account = a) ∧ active = true ∧ a ∉ s.ayes ∧ a ∉ s.nays ∧
    s'.ayes = (if ap then s.ayes ++ [a] else s.ayes) ∧ s'.nays = (if ap then s.nays else s.nays ++ [a]) ∧
    s'.threshold = s.threshold ∧ s'.endOfVotingPeriod = s.endOfVotingPeriod := by
  unfold castVote validateVote at h
  by_cases h1 : isValidator vs a = false
  · simp [h1] at h
  · by_cases h2 : active = false
    · simp [h1, h2] at h
    · by_cases h3 : s.hasVoted a = true
      · simp [h1, h2, h3] at h
      · have hv : ∃ v ∈ vs, v.account = a := by
          simp [isValidator] at h1
          obtain ⟨v, hv, he⟩ := h1
          exact ⟨v, hv, he⟩
        have hn : a ∉ s.ayes ∧ a ∉ s.nays := by
          simp [Session.hasVoted] at h3; exact h3
        have hact : active = true := by simpa using h2
        have hv1 : isValidator vs a = true := by simpa using h1
        have hv3 : s.hasVoted a = false := by simpa using h3
        simp only [hv1, hact, hv3] at h
        cases ap
        · by_cases hl : s.nays.length < maxValidators
          · simp [hl] at h; subst h; exact ⟨hv, hact, hn.1, hn.2, by simp⟩
          · simp [hl] at h
        · by_cases hl : s.ayes.length < maxValidators
          · simp [hl] at h; subst h; exact ⟨hv, hact, hn.1, hn.2, by simp⟩
          · simp [hl] at h

/-- **C26.** After any sequence of votes in a fresh session (validator sets may change in between) every account is recorded at most
once over both sides, each recorded account was a validator when it voted, and the lists respect their bound. -/
theorem C26_each_voter_counted_once (threshold e c : Nat) (ops : List VoteOp) :
    let s := runVotes (Session.new threshold e c) ops
    (s.ayes ++ s.nays).Nodup ∧ s.ayes.length ≤ maxValidators ∧ s.nays.length ≤ maxValidators ∧
    s.threshold = threshold ∧ s.endOfVotingPeriod = e ∧
    (∀ a ∈ s.ayes, ∃ o ∈ ops, o.voter = a ∧ o.approve = true ∧ o.active = true ∧ ∃ v ∈ o.validators, v.account = a) ∧
    (∀ a ∈ s.nays, ∃ o ∈ ops, o.voter = a ∧ o.approve = false ∧ o.active = true ∧ ∃ v ∈ o.validators, v.account = a) := by
  suffices H : ∀ (ops : List VoteOp) (pre : List VoteOp) (s : Session),
      ((s.ayes ++ s.nays).Nodup ∧ s.ayes.length ≤ maxValidators ∧ s.nays.length ≤ maxValidators ∧
        s.threshold = threshold ∧ s.endOfVotingPeriod = e ∧
        (∀ a ∈ s.ayes, ∃ o ∈ pre, o.voter = a ∧ o.approve = true ∧ o.active = true ∧ ∃ v ∈ o.validators, v.account = a) ∧
        (∀ a ∈ s.nays, ∃ o ∈ pre, o.voter = a ∧ o.approve = false ∧ o.active = true ∧ ∃ v ∈ o.validators, v.account = a)) →
      let t := runVotes s ops
      (t.ayes ++ t.nays).Nodup ∧ t.ayes.length ≤ maxValidators ∧ t.nays.length ≤ maxValidators ∧
        t.threshold = threshold ∧ t.endOfVotingPeriod = e ∧
        (∀ a ∈ t.ayes, ∃ o ∈ pre ++ ops, o.voter = a ∧ o.approve = true ∧ o.active = true ∧ ∃ v ∈ o.validators, v.account = a) ∧
        (∀ a ∈ t.nays, ∃ o ∈ pre ++ ops, o.voter = a ∧ o.approve = false ∧ o.active = true ∧ ∃ v ∈ o.validators, v.account = a) by
    have := H ops [] (Session.new threshold e c) (by simp [Session.new])
    simpa using this
  intro ops
  induction ops with
  | nil => intro pre s h; simpa [runVotes] using h
  | cons o ops ih =>
    intro pre s h
    have hstep := ih (pre ++ [o]) (applyVote s o) ?_
    · simpa [runVotes] using hstep
    · obtain ⟨hnd, hla, hln, hth, he, ha, hna⟩ := h
      have weaken : ∀ (P : VoteOp → Prop), (∃ o' ∈ pre, P o') → ∃ o' ∈ pre ++ [o], P o' := by
        rintro P ⟨o', ho', hp⟩; exact ⟨o', by simp [ho'], hp⟩
      unfold applyVote
      cases hc : castVote o.validators o.active s o.voter o.approve with
      | error _ =>
        exact ⟨hnd, hla, hln, hth, he, fun a h' => weaken _ (ha a h'), fun a h' => weaken _ (hna a h')⟩
      | ok s' =>
        obtain ⟨hv, hact, hnA, hnN, hA, hN, hT, hE⟩ := C26_accepted_vote _ _ _ _ _ _ hc
        have hbound : s'.ayes.length ≤ maxValidators ∧ s'.nays.length ≤ maxValidators := by
          unfold castVote at hc
          split at hc
          · cases hc
          · split at hc
            · split at hc
              · cases hc; simp only [List.length_append, List.length_singleton]; omega
              · cases hc
            · split at hc
              · cases hc; simp only [List.length_append, List.length_singleton]; omega
              · cases hc
        refine ⟨?_, hbound.1, hbound.2, hT.trans hth, hE.trans he, ?_, ?_⟩
        · rw [hA, hN]
          rw [List.nodup_append] at hnd
          cases hap : o.approve
          · simp only [Bool.false_eq_true, if_false]
            rw [← List.append_assoc, List.nodup_append]
            refine ⟨by rw [List.nodup_append]; exact hnd, by simp, ?_⟩
            intro a ha' b hb hab
            simp at hb; subst hb; subst hab
            rcases List.mem_append.mp ha' with h' | h'
            · exact hnA h'
            · exact hnN h'
          · simp only [if_true]
            rw [List.append_assoc, List.singleton_append, List.nodup_append]
            refine ⟨hnd.1, by simp [hnN, hnd.2.1], ?_⟩
            intro a ha' b hb hab
            subst hab
            rcases List.mem_cons.mp hb with h' | h'
            · subst h'; exact hnA ha'
            · exact hnd.2.2 a ha' a h' rfl
        · intro a ha'
          rw [hA] at ha'
          cases hap : o.approve
          · simp only [hap, Bool.false_eq_true, if_false] at ha'
            exact weaken _ (ha a ha')
          · simp only [hap, if_true, List.mem_append, List.mem_singleton] at ha'
            rcases ha' with h' | h'
            · exact weaken _ (ha a h')
            · subst h'; exact ⟨o, by simp, rfl, hap, hact, hv⟩
        · intro a ha'
          rw [hN] at ha'
          cases hap : o.approve
          · simp only [hap, Bool.false_eq_true, if_false, List.mem_append, List.mem_singleton] at ha'
            rcases ha' with h' | h'
            · exact weaken _ (hna a h')
            · subst h'; exact ⟨o, by simp, rfl, hap, hact, hv⟩
          · simp only [hap, if_true] at ha'
            exact weaken _ (hna a ha')

/-- **C26.** A session has an outcome exactly when one side reaches the threshold, and it is approved exactly when the ayes do. -/
theorem C26_outcome_iff (s : Session) :
    (s.hasOutcome = true ↔ s.threshold ≤ s.ayes.length ∨ s.threshold ≤ s.nays.length) ∧
    (s.isApproved = true ↔ s.threshold ≤ s.ayes.length) := by
  simp [Session.hasOutcome, Session.isApproved]

example : (runVotes (Session.new 2 10 0)
    [⟨[⟨1, 1⟩, ⟨2, 2⟩], true, 1, true⟩, ⟨[⟨1, 1⟩, ⟨2, 2⟩], true, 1, false⟩, ⟨[⟨1, 1⟩, ⟨2, 2⟩], true, 2, true⟩]).ayes
    = [1, 2] := by decide

/-! ## C28 off-chain worker guard -/

/-- Blocks for which the worker was allowed to run, for any sequence of triggers (block number, write conflict). -/
def ocwRuns : Option Nat → List (Nat × Bool) → List Nat
  | _, [] => []
  | last, (b, c) :: rest =>
    let r := recordBlockRun last b c
    if r.1 then b :: ocwRuns r.2 rest else ocwRuns r.2 rest

theorem ocwRuns_gt (trig : List (Nat × Bool)) : ∀ last,
    (ocwRuns last trig).Pairwise (· < ·) ∧ ∀ l, last = some l → ∀ b ∈ ocwRuns last trig, l < b := by
  induction trig with
  | nil => intro last; simp [ocwRuns]
  | cons t rest ih =>
    obtain ⟨b, c⟩ := t
    intro last
    simp only [ocwRuns]
    have key : (recordBlockRun last b c).1 = true →
        (recordBlockRun last b c).2 = some b ∧ ∀ l, last = some l → l < b := by
      unfold recordBlockRun
      cases last with
      | none => cases c <;> simp
      | some l =>
        by_cases h : l ≥ b
        · simp [h]
        · cases c <;> simp [h]; omega
    have key2 : (recordBlockRun last b c).1 = false → (recordBlockRun last b c).2 = last := by
      unfold recordBlockRun
      cases last with
      | none => cases c <;> simp
      | some l =>
        by_cases h : l ≥ b
        · simp [h]
        · cases c <;> simp [h]
    cases hr : (recordBlockRun last b c).1
    · rw [key2 hr]; simpa using ih last
    · obtain ⟨h2, hl⟩ := key hr
      rw [h2]
      obtain ⟨hp, hgt⟩ := ih (some b)
      simp only [if_true]
      refine ⟨List.pairwise_cons.mpr ⟨hgt b rfl, hp⟩, ?_⟩
      intro l hlast x hx
      rcases List.mem_cons.mp hx with h | h
      · subst h; exact hl l hlast
      · exact Nat.lt_trans (hl l hlast) (hgt b rfl x h)

/-- **C28.** Whatever the order of block triggers (re-orgs, repeats, conflicting writes), the blocks for which a worker identity runs are
strictly increasing; in particular it runs at most once per block. -/
theorem C28_worker_runs_strictly_increasing (last : Option Nat) (trig : List (Nat × Bool)) :
    (ocwRuns last trig).Pairwise (· < ·) := (ocwRuns_gt trig last).1

/-- **C28.** The guard is not over-restrictive: a trigger for a block later than every recorded one, without a write conflict, runs. -/
theorem C28_new_block_runs (last : Option Nat) (b : Nat) (h : ∀ l, last = some l → l < b) :
    recordBlockRun last b false = (true, some b) := by
  unfold recordBlockRun
  cases last with
  | none => simp
  | some l => have := h l rfl; simp; omega

example : ocwRuns none [(5, false), (5, false), (4, false), (6, true), (6, false), (5, false)] = [5, 6] := by decide

/-! ## C23 authentication of unsigned validator calls -/

/-- The intended specification: signed with the key registered for that account. -/
def signedByRegisteredKey {Data Sig : Type} (verify : Nat → Data → Sig → Bool) (vs : List Validator)
    (data : Data) (account : Nat) (sig : Sig) : Prop :=
  ∃ v ∈ vs, v.account = account ∧ verify v.key data sig = true

/-- **C23, partial.** If the key carried by the call is the registered one, acceptance means a signature by the registered key of a
current validator, and conversely. Missing from the full claim: the pallet never checks that the carried key is the registered one. -/
theorem C23_authenticated_partial {Data Sig : Type} (verify : Nat → Data → Sig → Bool) (vs : List Validator)
    (data : Data) (v : Validator) (sig : Sig) (hreg : ∀ w ∈ vs, w.account = v.account → w = v) :
    signatureIsValid verify vs data v sig = true ↔ signedByRegisteredKey verify vs data v.account sig := by
  unfold signatureIsValid signedByRegisteredKey isValidator
  constructor
  · intro h
    simp only [Bool.and_eq_true, List.any_eq_true, beq_iff_eq] at h
    obtain ⟨⟨w, hw, ha⟩, hver⟩ := h
    have := hreg w hw ha
    subst this
    exact ⟨w, hw, rfl, hver⟩
  · rintro ⟨w, hw, ha, hver⟩
    have := hreg w hw ha
    subst this
    simp only [Bool.and_eq_true, List.any_eq_true, beq_iff_eq]
    exact ⟨⟨w, hw, rfl⟩, hver⟩

/-- **C23 (unconditional part).** An accepted call names an account that is a current validator. -/
theorem C23_account_is_validator {Data Sig : Type} (verify : Nat → Data → Sig → Bool) (vs : List Validator)
    (data : Data) (v : Validator) (sig : Sig) (h : signatureIsValid verify vs data v sig = true) :
    ∃ w ∈ vs, w.account = v.account := by
  unfold signatureIsValid isValidator at h
  simp only [Bool.and_eq_true, List.any_eq_true, beq_iff_eq] at h
  exact h.1

/-- **C23 is false of the code (finding F1).** For every validator set, every validator account in it and every foreign key that can sign
the data, a call attributed to that account is accepted with the foreign key, although no registered key of the account signed. -/
theorem C23_forgery {Data Sig : Type} (verify : Nat → Data → Sig → Bool) (vs : List Validator)
    (data : Data) (a k : Nat) (sig : Sig) (ha : ∃ w ∈ vs, w.account = a) (hk : verify k data sig = true) :
    signatureIsValid verify vs data ⟨a, k⟩ sig = true := by
  unfold signatureIsValid isValidator
  simp only [Bool.and_eq_true, List.any_eq_true, beq_iff_eq]
  exact ⟨ha, hk⟩

/-- A concrete forgery: verification accepts exactly signature = key; validator 1 has key 10, the attacker's key is 99. -/
theorem C23_full_claim_false :
    ∃ (verify : Nat → Nat → Nat → Bool) (vs : List Validator) (v : Validator) (sig : Nat),
      signatureIsValid verify vs 0 v sig = true ∧ ¬ signedByRegisteredKey verify vs 0 v.account sig := by
  refine ⟨fun k _ s => k == s, [⟨1, 10⟩], ⟨1, 99⟩, 99, by decide, ?_⟩
  rintro ⟨w, hw, -, hv⟩
  simp at hw
  subst hw
  simp at hv

end Verif.Avn
