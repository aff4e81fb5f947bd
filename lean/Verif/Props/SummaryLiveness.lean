import Verif.Props.SummaryWorker

/-!
# Property C95: summaries make progress

What the off-chain workers of honest authors submit is accepted and moves the protocol forward: proposals are recorded, votes are cast
and a quorum of approvals validates the root, expired votes are ended, and slots advance even if the slot's validator is silent.
-/

namespace Verif.SummaryWorker

open Verif Verif.Summary

variable (refOf : RootId → Nat → Nat) (H : Bytes → Bytes)

theorem updateSlot_can {s : State} {who : Nat} (hc : canAdvance s who = .ok ()) (hne : s.validators ≠ [])
    (h1 : s.currentSlot + 1 < 2 ^ 32) (h2 : s.nextSlotAt + s.schedulePeriod < 2 ^ 32) :
    ∃ s', updateSlot s who = .ok s' ∧ s'.currentSlot = s.currentSlot + 1 := by
  unfold updateSlot
  rw [hc]
  dsimp only
  unfold addBlocks
  rw [if_pos (by simp only [pow32]; exact h1)]
  dsimp only
  have hlt : (s.currentSlot + 1) % s.validators.length < s.validators.length :=
    Nat.mod_lt _ (List.length_pos_of_ne_nil hne)
  unfold Avn.primaryForBlock
  rw [if_neg hne, List.getElem?_eq_getElem hlt]
  dsimp only
  rw [if_pos (by simp only [pow32]; exact h2)]
  exact ⟨_, rfl, rfl⟩

/-! ### Proposing -/

/-- The node has all blocks of the range and knows they are finalised. -/
def Has (nd : Node) (r : Range) : Prop :=
  ∀ n, r.fromBlock ≤ n → n ≤ r.toBlock → n ≤ nd.client.finalised ∧ (nd.client.block n).isSome = true

/-- **C95** (proposals): in every reachable state, the slot's validator proposes the root of the next range once the blocks are old
enough, and the proposal is recorded: the range becomes pending with the proposed hash, and its vote ends one voting period later. -/
theorem C95_slot_validator_proposes (h32 : ∀ x, (H x).length = 32) (sp vp first : Nat) (vs : List Avn.Validator) (a e : Bool)
    (gr : Nat) (steps : List Step) (hl : steps.length + 1 < 2 ^ 64) (s : State)
    (hs : s = run refOf (genesis sp vp first vs a e gr) steps) (nd : Node) (last : Nat)
    (hauth : Avn.isValidator s.validators nd.me = true) (hslot : s.slotValidator = some nd.me)
    (hactive : s.block < s.nextSlotAt) (ht : targetBlock s = .ok last) (hage : last + nd.minAge < s.block)
    (hb : s.block + s.votingPeriod < 2 ^ 32) (hlock : nd.lockedCreate last = false)
    (hfree : neitherPendingNorApproved s ⟨s.nextBlock, last⟩ = true) (hhas : Has nd ⟨s.nextBlock, last⟩) :
    ∃ hash, Tx.record last hash (s.totalIngresses + 1) ∈ workerRun H nd s ∧
      (∀ F, Faithful F nd → IsTrueRoot H F ⟨s.nextBlock, last⟩ hash) ∧
      ∀ pub prop, let s' := step refOf s ((Tx.record last hash (s.totalIngresses + 1)).toStep nd.me pub prop)
        s'.pending ⟨s.nextBlock, last⟩ = some (s.totalIngresses + 1) ∧
        (∃ d, getRoot s'.roots ⟨⟨s.nextBlock, last⟩, s.totalIngresses + 1⟩ = some d ∧ d.rootHash = hash ∧ d.addedBy = some nd.me) ∧
        ∃ v, s'.votes ⟨⟨s.nextBlock, last⟩, s.totalIngresses + 1⟩ = some v ∧ v.endOfVotingPeriod = s.block + s.votingPeriod ∧
          v.ayes = [] ∧ v.nays = [] := by
  have htot : s.totalIngresses ≤ steps.length := by rw [hs]; exact total_le _ rfl steps
  have hw : wrapInc64 s.totalIngresses = s.totalIngresses + 1 := by
    unfold wrapInc64; exact Nat.mod_eq_of_lt (by simp only [pow64]; omega)
  obtain ⟨hash, hc⟩ := computeRoot_total h32 (a := s.nextBlock) (b := last) hhas
  refine ⟨hash, ?_, fun F hF => computeRoot_true H hF (r := ⟨s.nextBlock, last⟩) hc, ?_⟩
  · unfold workerRun
    rw [if_neg (by rw [hauth]; simp)]
    simp only [List.mem_append]
    refine .inl (.inl (.inl (.inr ?_)))
    unfold proposeIfRequired
    rw [ht]
    dsimp only
    have hcan : canProcess nd s last = true := by
      unfold canProcess addBlocks
      rw [if_neg (by rw [hlock]; simp), if_pos (by simp only [pow32]; omega)]
      simp only [Bool.and_eq_true, decide_eq_true_eq]
      exact ⟨⟨⟨hslot, hactive⟩, hage⟩, hfree⟩
    rw [if_pos hcan, hc, hw]
    simp
  · intro pub prop
    have hvn : s.votes ⟨⟨s.nextBlock, last⟩, s.totalIngresses + 1⟩ = none := by
      cases hv : s.votes ⟨⟨s.nextBlock, last⟩, s.totalIngresses + 1⟩ with
      | none => rfl
      | some v =>
        exfalso
        rw [hs] at hv
        have := votes_bound (refOf := refOf) (genesis sp vp first vs a e gr) rfl (fun _ => rfl) steps (by omega) _ _ hv
        rw [← hs] at this
        simp only at this
        omega
    have hstep : step refOf s ((Tx.record last hash (s.totalIngresses + 1)).toStep nd.me pub prop) =
        recordEffects s ⟨⟨s.nextBlock, last⟩, s.totalIngresses + 1⟩ hash nd.me (s.block + s.votingPeriod) := by
      simp only [Tx.toStep, step]
      rw [if_pos ⟨hslot, hauth⟩]
      unfold recordSummary
      rw [if_neg (by rw [hw]; simp), if_neg (by rw [hauth]; simp)]
      dsimp only
      rw [ht]
      dsimp only
      rw [if_neg (by rw [hfree]; simp), if_neg (by rw [hvn]; simp), if_neg (by simp)]
      unfold addBlocks
      rw [if_pos (by simp only [pow32]; omega)]
      rfl
    rw [hstep]
    refine ⟨by simp [recordEffects], ⟨⟨hash, some nd.me, false, false, none⟩, by simp [recordEffects], rfl, rfl⟩, ?_⟩
    exact ⟨Avn.Session.new (Avn.getQuorum s.validators) (s.block + s.votingPeriod) s.block,
      by simp [recordEffects, upd_apply], rfl, rfl, rfl⟩

/-! ### Voting -/

theorem vote_in_run {nd : Node} {s : State} {tx : Tx} (hv : Avn.isValidator s.validators nd.me = true)
    (h : tx ∈ voteIfRequired H nd s) : tx ∈ workerRun H nd s := by
  unfold workerRun
  rw [if_neg (by rw [hv]; simp)]
  simp only [List.mem_append]
  exact .inl (.inl (.inr h))

theorem mem_pendingIds {nd : Node} {s : State} {rid : RootId} :
    rid ∈ pendingIds nd s ↔ rid.range ∈ nd.order ∧ s.pending rid.range = some rid.ingress := by
  unfold pendingIds
  rw [List.mem_filterMap]
  constructor
  · rintro ⟨r, h1, h2⟩
    cases hp : s.pending r with
    | none => rw [hp] at h2; simp at h2
    | some k => rw [hp] at h2; simp at h2; subst h2; exact ⟨h1, hp⟩
  · rintro ⟨h1, h2⟩
    exact ⟨rid.range, h1, by rw [h2]; rfl⟩

/-- An author who has not voted yet can vote on a pending root until its vote ends. -/
def Votable (s : State) (x : Nat) (rid : RootId) : Prop :=
  s.pending rid.range = some rid.ingress ∧ ∃ v, s.votes rid = some v ∧ s.block < v.endOfVotingPeriod ∧ x ∉ v.ayes ∧ x ∉ v.nays

theorem canVoteOn_of_votable {nd : Node} {s : State} (hi : Inv refOf s) {rid : RootId} (hv : Votable s nd.me rid)
    (hl : nd.lockedVote rid = false) : canVoteOn nd s rid = true := by
  obtain ⟨h1, v, h2, h3, h4, h5⟩ := hv
  obtain ⟨d, h6⟩ := Option.isSome_iff_exists.1 (hi.pend _ _ h1)
  have h7 := hi.pendNot _ _ rid.ingress d h1 h6
  unfold canVoteOn
  rw [h2]
  simp only [Bool.and_eq_true, Bool.not_eq_true', hl, and_true]
  refine ⟨by simp [Avn.Session.hasVoted, h4, h5], ?_⟩
  unfold sessionActive
  rw [h2]
  simp only [Bool.and_eq_true, decide_eq_true_eq]
  exact ⟨h3, (sessionValid_iff s rid).2 ⟨d, v, h6, h1, h2, h7⟩⟩

theorem votable_of_canVoteOn {nd : Node} {s : State} {rid : RootId} (h : canVoteOn nd s rid = true) : Votable s nd.me rid := by
  unfold canVoteOn at h
  cases hv : s.votes rid with
  | none => rw [hv] at h; simp at h
  | some v =>
    rw [hv] at h
    simp only [Bool.and_eq_true, Bool.not_eq_true'] at h
    obtain ⟨⟨h1, _⟩, h3⟩ := h
    refine ⟨sessionActive_pending h3, v, hv, ?_, ?_, ?_⟩
    · unfold sessionActive at h3
      rw [hv] at h3
      simp only [Bool.and_eq_true, decide_eq_true_eq] at h3
      exact h3.1
    · intro hx; simp [Avn.Session.hasVoted, hx] at h1
    · intro hx; simp [Avn.Session.hasVoted, hx] at h1

/-- **C95** (votes): in every reachable state, if there is a root the author has not voted on and can vote on, and its node has
the finalised blocks of the roots it may vote on, its worker submits exactly one vote, on such a root; the vote is an approval
exactly if the proposed hash is the true one. -/
theorem C95_worker_votes (h32 : ∀ x, (H x).length = 32) (sp vp first : Nat) (vs : List Avn.Validator) (a e : Bool)
    (gr : Nat) (steps : List Step) (s : State) (hs : s = run refOf (genesis sp vp first vs a e gr) steps) (nd : Node)
    (hauth : Avn.isValidator s.validators nd.me = true) (hlock : ∀ r, nd.lockedVote r = false) (hpool : ∀ r, nd.poolTakes r = true)
    (horder : ∀ r k, s.pending r = some k → r ∈ nd.order) (hhas : ∀ rid, Votable s nd.me rid → Has nd rid.range)
    (rid : RootId) (hr : Votable s nd.me rid) :
    ∃ rid' d ap, Votable s nd.me rid' ∧ getRoot s.roots rid' = some d ∧ voteIfRequired H nd s = [.vote rid' ap] ∧
      Tx.vote rid' ap ∈ workerRun H nd s ∧
      ∀ F, Faithful F nd → (ap = true ↔ IsTrueRoot H F rid'.range d.rootHash) := by
  have hi : Inv refOf s := by rw [hs]; exact inv_run (inv_genesis sp vp first vs a e gr) steps
  have hmem : rid ∈ (pendingIds nd s).filter (canVoteOn nd s) :=
    List.mem_filter.2 ⟨mem_pendingIds.2 ⟨horder _ _ hr.1, hr.1⟩, canVoteOn_of_votable refOf hi hr (hlock rid)⟩
  obtain ⟨x, t, hxt⟩ := List.exists_cons_of_ne_nil (List.ne_nil_of_mem hmem)
  have hx : x ∈ (pendingIds nd s).filter (canVoteOn nd s) := by rw [hxt]; simp
  obtain ⟨hx1, hx2⟩ := List.mem_filter.1 hx
  have hvx := votable_of_canVoteOn hx2
  obtain ⟨d, hd⟩ := Option.isSome_iff_exists.1 (hi.pend _ _ hvx.1)
  obtain ⟨hash, hc⟩ := computeRoot_total h32 (hhas x hvx)
  have hvote : voteIfRequired H nd s = [.vote x (decide (hash = d.rootHash))] := by
    unfold voteIfRequired
    rw [hxt, maxSessions, List.take_succ_cons]
    unfold voteLoop
    rw [hc]
    dsimp only
    rw [hd]
    dsimp only
    rw [if_pos (hpool x)]
  refine ⟨x, d, decide (hash = d.rootHash), hvx, hd, hvote, vote_in_run H hauth (by rw [hvote]; simp), ?_⟩
  intro F hF
  have htrue := computeRoot_true H hF hc
  rw [decide_eq_true_eq]
  constructor
  · intro h; rw [← h]; exact htrue
  · intro h; exact isTrueRoot_unique H htrue h

/-! ### A pending root has no outcome yet -/

/-- Every pending root has a proposer and a vote without outcome. -/
def Open (s : State) : Prop :=
  ∀ r k, s.pending r = some k → ∃ d v, getRoot s.roots ⟨r, k⟩ = some d ∧ d.addedBy.isSome = true ∧ s.votes ⟨r, k⟩ = some v ∧
    v.hasOutcome = false ∧ v.threshold ≤ 256

/-- There were never more than 256 authors (`MaximumValidatorsBound`). -/
def FewAuthors (g : State) (steps : List Step) : Prop :=
  ∀ pre post, steps = pre ++ post → (run refOf g pre).validators.length ≤ 256

variable {refOf}

theorem open_frame {s s' : State} (ho : Open s) (hi : Inv refOf s) {op : Step} (hm : Micro refOf op s s')
    (hv : s'.votes = s.votes) (hp : ∀ r k, s'.pending r = some k → s.pending r = some k) : Open s' := by
  intro r k h
  obtain ⟨d, v, h1, h2, h3, h4, h5⟩ := ho r k (hp r k h)
  obtain ⟨d', k1, _, k3⟩ := micro_root hi hm _ _ h1
  exact ⟨d', v, k1, by rw [k3]; exact h2, by rw [hv]; exact h3, h4, h5⟩

theorem endVoting_ok_pending {s s' : State} {rid : RootId} {p : Option Nat} {q : Bool} (h : endVoting refOf s rid p q = .ok s') :
    s'.pending = upd s.pending rid.range none ∧ s'.votes = s.votes ∧ s'.validators = s.validators := by
  unfold endVoting at h
  by_cases h1 : sessionValid s rid = false
  · rw [if_pos h1] at h; simp at h
  rw [if_neg h1] at h
  cases h2 : s.votes rid with
  | none => rw [h2] at h; simp at h
  | some v =>
    cases h3 : getRoot s.roots rid with
    | none => rw [h2, h3] at h; simp at h
    | some d =>
      rw [h2, h3] at h
      dsimp only at h
      by_cases h4 : (v.hasOutcome || decide (s.block ≥ v.endOfVotingPeriod)) = false
      · rw [if_pos h4] at h; simp at h
      rw [if_neg h4] at h
      by_cases h5 : v.isApproved = true
      · rw [if_pos h5] at h
        cases h6 : acceptRoot refOf s rid d p q with
        | error e => rw [h6] at h; simp at h
        | ok s1 =>
          rw [h6] at h
          dsimp only at h
          cases h7 : addBlocks rid.range.toBlock 1 with
          | error e => rw [h7] at h; simp at h
          | ok n =>
            rw [h7] at h
            dsimp only at h
            cases h
            have hacc := acceptRoot_ok h3 h6
            simp only [markValidated]
            cases hacc with
            | submitted => exact ⟨rfl, rfl, rfl⟩
            | processed _ hp => cases hp <;> exact ⟨rfl, rfl, rfl⟩
      · rw [if_neg h5] at h
        cases h6 : d.addedBy with
        | none => rw [h6] at h; simp at h
        | some c =>
          rw [h6] at h
          dsimp only at h
          cases h
          exact ⟨rfl, rfl, rfl⟩

theorem hasOutcome_new (n b c : Nat) (hn : 0 < n) : (Avn.Session.new n b c).hasOutcome = false := by
  simp [Avn.Session.new, Avn.Session.hasOutcome]; omega

theorem quorum_pos {vs : List Avn.Validator} {x : Nat} (h : Avn.isValidator vs x = true) : 0 < Avn.getQuorum vs := by
  have : vs ≠ [] := by rintro rfl; simp [Avn.isValidator] at h
  have := List.length_pos_of_ne_nil this
  unfold Avn.getQuorum Avn.requiredFor; omega

theorem castVote_threshold {vs : List Avn.Validator} {act : Bool} {v v' : Avn.Session} {x : Nat} {b : Bool}
    (h : Avn.castVote vs act v x b = .ok v') : v'.threshold = v.threshold := by
  unfold Avn.castVote at h
  cases h1 : Avn.validateVote vs act v x with
  | error e => rw [h1] at h; simp at h
  | ok u =>
    rw [h1] at h
    dsimp only at h
    cases b with
    | true =>
      simp only [if_true] at h
      by_cases h2 : v.ayes.length < Avn.maxValidators
      · rw [if_pos h2] at h; cases h; rfl
      · rw [if_neg h2] at h; simp at h
    | false =>
      simp only [Bool.false_eq_true, if_false] at h
      by_cases h2 : v.nays.length < Avn.maxValidators
      · rw [if_pos h2] at h; cases h; rfl
      · rw [if_neg h2] at h; simp at h

theorem castVote_active {vs : List Avn.Validator} {act : Bool} {v v' : Avn.Session} {x : Nat} {b : Bool}
    (h : Avn.castVote vs act v x b = .ok v') : act = true := by
  unfold Avn.castVote Avn.validateVote at h
  by_cases h1 : Avn.isValidator vs x = false
  · rw [if_pos h1] at h; simp at h
  rw [if_neg h1] at h
  by_cases h2 : act = false
  · rw [if_pos h2] at h; simp at h
  · simpa using h2

theorem castVote_ends {vs : List Avn.Validator} {act : Bool} {v v' : Avn.Session} {x : Nat} {b : Bool}
    (h : Avn.castVote vs act v x b = .ok v') : v'.endOfVotingPeriod = v.endOfVotingPeriod := by
  unfold Avn.castVote at h
  cases h1 : Avn.validateVote vs act v x with
  | error e => rw [h1] at h; simp at h
  | ok u =>
    rw [h1] at h
    dsimp only at h
    cases b with
    | true =>
      simp only [if_true] at h
      by_cases h2 : v.ayes.length < Avn.maxValidators
      · rw [if_pos h2] at h; cases h; rfl
      · rw [if_neg h2] at h; simp at h
    | false =>
      simp only [Bool.false_eq_true, if_false] at h
      by_cases h2 : v.nays.length < Avn.maxValidators
      · rw [if_pos h2] at h; cases h; rfl
      · rw [if_neg h2] at h; simp at h

theorem sessionActive_upd {s : State} {rid : RootId} {v v' : Avn.Session} (hv : s.votes rid = some v)
    (he : v'.endOfVotingPeriod = v.endOfVotingPeriod) (ha : sessionActive s rid = true) :
    sessionActive { s with votes := upd s.votes rid (some v') } rid = true := by
  unfold sessionActive at ha ⊢
  rw [hv] at ha
  simp only [Bool.and_eq_true, decide_eq_true_eq] at ha
  obtain ⟨d, w, h1, h2, h3, h4⟩ := (sessionValid_iff s rid).1 ha.2
  simp only [upd_apply, if_true, Bool.and_eq_true, decide_eq_true_eq]
  exact ⟨by rw [he]; exact ha.1, (sessionValid_iff _ _).2 ⟨d, v', h1, h2, by simp [upd_apply], h4⟩⟩

/-- The author list is bounded. -/
def Bounded (s : State) : Prop := s.validators.length ≤ 256

theorem open_micro {s s' : State} {op : Step} (hi : Inv refOf s) (hb : Bounded s) (ho : Open s)
    (hn : ∀ rid x a p q, op ≠ .vote rid x a p q) (hm : Micro refOf op s s') : Open s' := by
  have hm0 := hm
  cases hm with
  | recorded b' h' k' who' ve hop hauth hslot hk htgt hfree hvn =>
    intro r k2 hp
    by_cases hr : (⟨r, k2⟩ : RootId) = ⟨⟨s.nextBlock, b'⟩, k'⟩
    · rw [hr]
      refine ⟨⟨h', some who', false, false, none⟩, Avn.Session.new (Avn.getQuorum s.validators) ve s.block,
        by simp [recordEffects], rfl, by simp [recordEffects], hasOutcome_new _ _ _ (quorum_pos hauth), ?_⟩
      have : Avn.getQuorum s.validators ≤ s.validators.length := by unfold Avn.getQuorum Avn.requiredFor; omega
      exact Nat.le_trans this hb
    · have hp' : s.pending r = some k2 := by
        simp only [recordEffects, upd_apply] at hp
        by_cases hr2 : r = ⟨s.nextBlock, b'⟩
        · rw [if_pos hr2] at hp
          cases hp
          exact absurd (by rw [hr2]) hr
        · rw [if_neg hr2] at hp; exact hp
      obtain ⟨d, w, h1, h2, h3, h4, h5⟩ := ho r k2 hp'
      obtain ⟨d', e1, _, e3⟩ := micro_root hi hm0 _ _ h1
      exact ⟨d', w, e1, by rw [e3]; exact h2, by simp only [recordEffects, upd_apply]; rw [if_neg hr]; exact h3, h4, h5⟩
  | frame _ evs hf hl he hs hp => exact open_frame ho hi hm0 hf.2.2.2.1 (by rw [hf.2.2.2.2.1]; exact fun _ _ h => h)
  | voted rid x a p q _ _ hop => exact absurd hop (hn rid x a p q)
  | approved rid v d pub s1 hval hv hd happ hacc =>
    refine open_frame ho hi hm0 (accepted_rest hacc).2.2.2.1 ?_
    intro r k2 h2
    simp only [markValidated, upd_apply, (accepted_rest hacc).1] at h2
    by_cases hr : r = rid.range
    · rw [if_pos hr] at h2; simp at h2
    · rw [if_neg hr] at h2; exact h2
  | rejected rid v d c hval hv hd happ hend hc =>
    refine open_frame ho hi hm0 rfl ?_
    intro r k2 h2
    simp only [upd_apply] at h2
    by_cases hr : r = rid.range
    · rw [if_pos hr] at h2; simp at h2
    · rw [if_neg hr] at h2; exact h2
  | resolvedAccept rid ref d pub s1 hop hr hst hd hp =>
    refine open_frame ho hi hm0 (processed_rest hp hd).2.1 ?_
    intro r k2 h2
    have h3 : s1.pending r = some k2 := h2
    rw [(processed_total hp).2.2] at h3; exact h3
  | resolvedReject => exact open_frame ho hi hm0 rfl (fun _ _ h => h)
  | completed rid ref d pub s1 hop hr hd hp =>
    refine open_frame ho hi hm0 (processed_rest hp hd).2.1 ?_
    intro r k2 h2
    have h3 : s1.pending r = some k2 := h2
    rw [(processed_total hp).2.2] at h3; exact h3
  | stuck => exact open_frame ho hi hm0 rfl (fun _ _ h => h)
  | review => exact open_frame ho hi hm0 rfl (fun _ _ h => h)
  | finalised => exact open_frame ho hi hm0 rfl (fun _ _ h => h)

theorem open_step {s : State} (hi : Inv refOf s) (hb : Bounded s) (ho : Open s) (op : Step) : Open (step refOf s op) := by
  have hother : (∀ rid x a p q, op ≠ .vote rid x a p q) → Open (step refOf s op) := by
    intro hn
    have hvw := step_view (refOf := refOf) s op
    generalize step refOf s op = s' at hvw
    cases hvw with
    | same => exact ho
    | one hm => exact open_micro hi hb ho hn hm
    | two rid x a p q v v' hop => exact absurd hop (hn rid x a p q)
  cases op with
  | vote rid x ap p q =>
    simp only [step]
    unfold castVote
    cases hv : s.votes rid with
    | none => exact ho
    | some v =>
      dsimp only
      cases hc : Avn.castVote s.validators (sessionActive s rid) v x ap with
      | error e => exact ho
      | ok v' =>
        dsimp only
        have hact := castVote_active hc
        have hact' := sessionActive_upd hv (castVote_ends hc) hact
        rw [hact', Bool.and_true]
        by_cases hout : v'.hasOutcome = true
        · rw [if_pos hout]
          cases he : endVoting refOf { s with votes := upd s.votes rid (some v') } rid p q with
          | error e => exact ho
          | ok s' =>
            obtain ⟨e1, e2, _⟩ := endVoting_ok_pending he
            simp only [commit]
            intro r k hp
            rw [e1, upd_apply] at hp
            by_cases hr : r = rid.range
            · rw [if_pos hr] at hp; simp at hp
            · rw [if_neg hr] at hp
              obtain ⟨d, w, h1, h2, h3, h4⟩ := ho r k hp
              have hm := Micro.voted (refOf := refOf) rid x ap p q v v' rfl hv hc
              have hi' : Inv refOf { s with votes := upd s.votes rid (some v') } := hi.micro hm
              obtain ⟨d', k1, _, k3⟩ := micro_root hi' (endVoting_micro (.cancelled 0) he) ⟨r, k⟩ d h1
              refine ⟨d', w, k1, by rw [k3]; exact h2, ?_, h4⟩
              rw [e2]
              simp only [upd_apply]
              rw [if_neg (by intro h; exact hr (by rw [← h])), h3]
        · rw [if_neg hout]
          simp only [commit]
          intro r k hp
          obtain ⟨d, w, h1, h2, h3, h4, h5⟩ := ho r k hp
          by_cases hr : (⟨r, k⟩ : RootId) = rid
          · subst hr
            rw [hv] at h3; cases h3
            exact ⟨d, v', h1, h2, by simp [upd_apply], by simpa using hout, by rw [castVote_threshold hc]; exact h5⟩
          · exact ⟨d, w, h1, h2, by simp [upd_apply, hr, h3], h4, h5⟩
  | _ => exact hother (by intros; simp)

theorem open_run {g : State} (hi : Inv refOf g) (hg : ∀ r, g.pending r = none) (steps : List Step)
    (hf : FewAuthors refOf g steps) : Open (run refOf g steps) := by
  induction steps using List.reverseRecOn with
  | nil => intro r k h; simp [run, hg] at h
  | append_singleton steps op ih =>
    rw [run_snoc]
    refine open_step (inv_run hi steps) (hf steps [op] rfl) (ih ?_) op
    intro pre post h
    exact hf pre (post ++ [op]) (by rw [h]; simp)

variable (refOf)

/-! ### A quorum of approvals validates -/

/-- The bridge, the watchtower or the anchor store takes the root if it is approved now. -/
def CanAccept (s : State) (hash : Nat) (pub : Option Nat) (prop : Bool) : Prop :=
  hash = 0 ∨ (s.external = true ∧ s.threshold.isSome = true ∧ prop = true) ∨
  (s.external = false ∧ ((s.auto = true ∧ pub.isSome = true) ∨ (s.auto = false ∧ s.anchorCounter + 1 < 2 ^ 32)))

theorem acceptRoot_can {s : State} {rid : RootId} {d : RootData} {pub : Option Nat} {prop : Bool}
    (hd : getRoot s.roots rid = some d) (h : CanAccept s d.rootHash pub prop) : ∃ s1, acceptRoot refOf s rid d pub prop = .ok s1 := by
  unfold acceptRoot
  by_cases h0 : d.rootHash = 0
  · rw [if_pos h0]; exact ⟨s, rfl⟩
  rw [if_neg h0]
  rcases h with h | ⟨h1, h2, h3⟩ | ⟨h1, h2⟩
  · exact absurd h h0
  · rw [if_pos h1]
    unfold submitExternal
    rw [if_neg (by rw [Option.isNone_iff_eq_none]; rintro h; rw [h] at h2; simp at h2), if_neg (by rw [h3]; simp)]
    exact ⟨_, rfl⟩
  · rw [if_neg (by rw [h1]; simp)]
    unfold processAccepted
    rw [hd]
    dsimp only
    rw [if_neg h0]
    rcases h2 with ⟨h2, h3⟩ | ⟨h2, h3⟩
    · rw [if_pos h2]
      obtain ⟨tx, rfl⟩ := Option.isSome_iff_exists.1 h3
      exact ⟨_, rfl⟩
    · rw [if_neg (by rw [h2]; simp), if_pos (by simp only [pow32]; exact h3)]
      exact ⟨_, rfl⟩

/-- The log a validation leaves. -/
theorem endVoting_approved {s : State} {rid : RootId} {d : RootData} {v : Avn.Session} {pub : Option Nat} {prop : Bool}
    (hval : sessionValid s rid = true) (hv : s.votes rid = some v) (hd : getRoot s.roots rid = some d)
    (happ : v.isApproved = true) (hacc : CanAccept s d.rootHash pub prop) (hto : rid.range.toBlock + 1 < 2 ^ 32) :
    ∃ s', endVoting refOf s rid pub prop = .ok s' ∧ Event.validated rid d.rootHash ∈ s'.log := by
  unfold endVoting
  rw [if_neg (by rw [hval]; simp), hv, hd]
  dsimp only
  have hout : v.hasOutcome = true := by
    unfold Avn.Session.isApproved at happ; unfold Avn.Session.hasOutcome; rw [happ]; simp
  rw [if_neg (by rw [hout]; simp), if_pos happ]
  obtain ⟨s1, h1⟩ := acceptRoot_can refOf hd hacc
  rw [h1]
  dsimp only
  unfold addBlocks
  rw [if_pos (by simp only [pow32]; exact hto)]
  exact ⟨_, rfl, by simp [markValidated]⟩

/-- Approvals of the accounts `xs`, one after the other. -/
def approvals (rid : RootId) (xs : List Nat) (pub : Option Nat) (prop : Bool) : List Step :=
  xs.map (fun x => Step.vote rid x true pub prop)

theorem log_grows (s : State) (steps : List Step) {ev : Event} (h : ev ∈ s.log) : ev ∈ (run refOf s steps).log := by
  obtain ⟨evs, he⟩ := run_log (refOf := refOf) s steps
  rw [he]; exact List.mem_append_left _ h

theorem approvals_validate (rid : RootId) (d : RootData) (pub : Option Nat) (prop : Bool) : ∀ (xs : List Nat) (s : State)
    (v : Avn.Session), sessionActive s rid = true → s.votes rid = some v → getRoot s.roots rid = some d →
    CanAccept s d.rootHash pub prop → rid.range.toBlock + 1 < 2 ^ 32 → v.hasOutcome = false → v.threshold ≤ 256 →
    v.threshold ≤ v.ayes.length + xs.length → xs.Nodup →
    (∀ x ∈ xs, Avn.isValidator s.validators x = true ∧ x ∉ v.ayes ∧ x ∉ v.nays) →
    Event.validated rid d.rootHash ∈ (run refOf s (approvals rid xs pub prop)).log
  | [], s, v, _, _, _, _, _, h6, _, h8, _, _ => by
    simp [Avn.Session.hasOutcome] at h6; simp at h8; omega
  | x :: xs, s, v, h1, h2, h3, h4, h5, h6, h7, h8, h9, h10 => by
    obtain ⟨hx1, hx2, hx3⟩ := h10 x (by simp)
    have hno : v.ayes.length < v.threshold ∧ v.nays.length < v.threshold := by
      simpa [Avn.Session.hasOutcome] using h6
    have hcast : Avn.castVote s.validators (sessionActive s rid) v x true = .ok { v with ayes := v.ayes ++ [x] } := by
      unfold Avn.castVote Avn.validateVote
      have hnv : v.hasVoted x = false := by simp [Avn.Session.hasVoted, hx2, hx3]
      rw [if_neg (by simp [hx1]), if_neg (by simp [h1]), if_neg (by simp [hnv])]
      dsimp only
      rw [if_pos rfl, if_pos (by simp only [Avn.maxValidators]; omega)]
    have hact : sessionActive { s with votes := upd s.votes rid (some { v with ayes := v.ayes ++ [x] }) } rid = true :=
      sessionActive_upd h2 rfl h1
    have hval : sessionValid { s with votes := upd s.votes rid (some { v with ayes := v.ayes ++ [x] }) } rid = true := by
      unfold sessionActive at hact
      simp only [upd_apply, if_true, Bool.and_eq_true] at hact
      exact hact.2
    have hstep : step refOf s (.vote rid x true pub prop) =
        (if ({ v with ayes := v.ayes ++ [x] } : Avn.Session).hasOutcome = true then
          commit s (endVoting refOf { s with votes := upd s.votes rid (some { v with ayes := v.ayes ++ [x] }) } rid pub prop)
         else { s with votes := upd s.votes rid (some { v with ayes := v.ayes ++ [x] }) }) := by
      simp only [step, castVote, h2, hcast, hact, Bool.and_true]
      by_cases ho : ({ v with ayes := v.ayes ++ [x] } : Avn.Session).hasOutcome = true
      · rw [if_pos ho, if_pos ho]
      · rw [if_neg ho, if_neg ho]; rfl
    have hrun : run refOf s (approvals rid (x :: xs) pub prop) =
        run refOf (step refOf s (.vote rid x true pub prop)) (approvals rid xs pub prop) := rfl
    rw [hrun]
    by_cases ho : ({ v with ayes := v.ayes ++ [x] } : Avn.Session).hasOutcome = true
    · rw [hstep, if_pos ho]
      have happ : ({ v with ayes := v.ayes ++ [x] } : Avn.Session).isApproved = true := by
        simp only [Avn.Session.hasOutcome, Bool.or_eq_true, decide_eq_true_eq] at ho
        simp only [Avn.Session.isApproved, decide_eq_true_eq]
        rcases ho with ho | ho
        · exact ho
        · omega
      obtain ⟨s', e1, e2⟩ := endVoting_approved refOf (d := d) (pub := pub) (prop := prop) hval (by simp) h3 happ h4 h5
      rw [e1]
      exact log_grows refOf s' _ e2
    · rw [hstep, if_neg ho]
      refine approvals_validate rid d pub prop xs _ { v with ayes := v.ayes ++ [x] } hact (by simp) h3 h4 h5 (by simpa using ho) h7
        ?_ (List.nodup_cons.1 h9).2 ?_
      · simp only [List.length_append, List.length_cons, List.length_nil] at h8 ⊢; omega
      · intro y hy
        obtain ⟨a1, a2, a3⟩ := h10 y (by simp [hy])
        refine ⟨a1, ?_, a3⟩
        simp only [List.mem_append, List.mem_singleton, not_or]
        exact ⟨a2, fun h => (List.nodup_cons.1 h9).1 (h ▸ hy)⟩

/-- **C95** (a quorum validates): in every reachable state, if a root is pending and its vote is running, approvals by as many further
authors as are missing to the quorum validate it, whatever was voted before (unless handing the root on fails at that moment). -/
theorem C95_quorum_of_approvals_validates (sp vp first : Nat) (vs : List Avn.Validator) (a e : Bool) (gr : Nat)
    (steps : List Step) (hf : FewAuthors refOf (genesis sp vp first vs a e gr) steps) (s : State)
    (hs : s = run refOf (genesis sp vp first vs a e gr) steps) (rid : RootId) (d : RootData) (v : Avn.Session)
    (hp : s.pending rid.range = some rid.ingress) (hd : getRoot s.roots rid = some d) (hv : s.votes rid = some v)
    (hrun : s.block < v.endOfVotingPeriod) (hto : rid.range.toBlock + 1 < 2 ^ 32) (pub : Option Nat) (prop : Bool)
    (hacc : CanAccept s d.rootHash pub prop) (xs : List Nat) (hnd : xs.Nodup)
    (hxs : ∀ x ∈ xs, Avn.isValidator s.validators x = true ∧ x ∉ v.ayes ∧ x ∉ v.nays)
    (hq : v.threshold ≤ v.ayes.length + xs.length) :
    Event.validated rid d.rootHash ∈ (run refOf s (approvals rid xs pub prop)).log := by
  have hi : Inv refOf s := by rw [hs]; exact inv_run (inv_genesis sp vp first vs a e gr) steps
  have ho : Open s := by rw [hs]; exact open_run (inv_genesis sp vp first vs a e gr) (fun _ => rfl) steps hf
  obtain ⟨d', v', k1, _, k3, k4, k5⟩ := ho _ _ hp
  have k1' : getRoot s.roots rid = some d' := k1
  have k3' : s.votes rid = some v' := k3
  rw [hv] at k3'; cases k3'
  have hact : sessionActive s rid = true := by
    unfold sessionActive
    rw [hv]
    simp only [Bool.and_eq_true, decide_eq_true_eq]
    exact ⟨hrun, (sessionValid_iff s rid).2 ⟨d, v, hd, hp, hv, hi.pendNot _ _ rid.ingress d hp hd⟩⟩
  exact approvals_validate refOf rid d pub prop xs s v hact hv hd hacc hto k4 k5 hq hnd hxs

/-! ### Expired votes are ended -/

/-- **C95** (expired votes): in every reachable state, once the voting period of a pending root is over, the worker of any author (whose
node lists this root among its first five expired ones) submits the end of the vote, and it is accepted by any author's hand: the range is
no longer pending and can be proposed again. -/
theorem C95_expired_vote_is_ended (sp vp first : Nat) (vs : List Avn.Validator) (a e : Bool) (gr : Nat)
    (steps : List Step) (hf : FewAuthors refOf (genesis sp vp first vs a e gr) steps) (s : State)
    (hs : s = run refOf (genesis sp vp first vs a e gr) steps) (rid : RootId) (v : Avn.Session)
    (hp : s.pending rid.range = some rid.ingress) (hv : s.votes rid = some v) (hend : v.endOfVotingPeriod < s.block)
    (nd : Node) (hauth : Avn.isValidator s.validators nd.me = true)
    (hfirst : rid ∈ ((pendingIds nd s).filter (fun r => decide (s.block > votingEnd s r))).take 5) :
    Tx.endVoting rid ∈ workerRun H nd s ∧
    ∀ pub prop, let s' := step refOf s ((Tx.endVoting rid).toStep nd.me pub prop)
      s'.pending rid.range = none ∧ Event.votingEnded rid false ∈ s'.log ∧ neitherPendingNorApproved s' rid.range = true := by
  have hi : Inv refOf s := by rw [hs]; exact inv_run (inv_genesis sp vp first vs a e gr) steps
  have ho : Open s := by rw [hs]; exact open_run (inv_genesis sp vp first vs a e gr) (fun _ => rfl) steps hf
  obtain ⟨d, v', k1, k2, k3, k4, _⟩ := ho _ _ hp
  have k1' : getRoot s.roots rid = some d := k1
  have k3' : s.votes rid = some v' := k3
  rw [hv] at k3'; cases k3'
  constructor
  · unfold workerRun
    rw [if_neg (by rw [hauth]; simp)]
    simp only [List.mem_append]
    refine .inl (.inr ?_)
    unfold endIfRequired
    have hall : ∀ r ∈ ((pendingIds nd s).filter (fun r => decide (s.block > votingEnd s r))).take 5, (s.votes r).isSome = true := by
      intro r hr
      obtain ⟨h1, _⟩ := List.mem_filter.1 (List.mem_of_mem_take hr)
      obtain ⟨dr, hdr⟩ := Option.isSome_iff_exists.1 (hi.pend _ _ (mem_pendingIds.1 h1).2)
      exact hi.rv r dr hdr
    have hloop : ∀ l : List RootId, (∀ r ∈ l, (s.votes r).isSome = true) → rid ∈ l → Tx.endVoting rid ∈ endLoop s l := by
      intro l
      induction l with
      | nil => intro _ h; simp at h
      | cons r l ih =>
        intro h1 h2
        obtain ⟨w, hw⟩ := Option.isSome_iff_exists.1 (h1 r (by simp))
        unfold endLoop
        rw [hw]
        dsimp only
        rcases List.mem_cons.1 h2 with rfl | h2
        · simp
        · exact List.mem_cons_of_mem _ (ih (fun r hr => h1 r (by simp [hr])) h2)
    exact hloop _ hall hfirst
  · intro pub prop
    obtain ⟨c, hc⟩ := Option.isSome_iff_exists.1 k2
    have hval : sessionValid s rid = true :=
      (sessionValid_iff s rid).2 ⟨d, v, k1', hp, hv, hi.pendNot _ _ rid.ingress d hp k1'⟩
    have hna : v.isApproved = false := by
      simp only [Avn.Session.hasOutcome, Bool.or_eq_false_iff] at k4
      exact k4.1
    have hstep : step refOf s ((Tx.endVoting rid).toStep nd.me pub prop) = { s with
        pending := upd s.pending rid.range none
        log := s.log ++ [.offence .createdInvalidRoot [c], .offence .approvedInvalidRoot v.ayes, .votingEnded rid false] } := by
      simp only [Tx.toStep, step]
      rw [if_pos hauth]
      unfold endVoting
      rw [if_neg (by rw [hval]; simp), hv, k1']
      dsimp only
      rw [if_neg (by
        simp only [Bool.or_eq_false_iff, not_and, Bool.not_eq_false, decide_eq_true_eq]
        intro _; omega), if_neg (by rw [hna]; simp), hc]
      rfl
    rw [hstep]
    refine ⟨by simp, by simp, ?_⟩
    unfold neitherPendingNorApproved
    simp only [upd_same, Option.isNone_none, Bool.true_and, Bool.not_eq_true']
    rw [List.any_eq_false]
    intro x hx
    simp only [Bool.and_eq_true, beq_iff_eq, not_and, Bool.not_eq_true]
    intro hr
    have hk : Keyed s.roots := by rw [hs]; exact keyed_run (by simp [Keyed, genesis]) steps
    have hx1 := hk x hx
    have hx2 : x.1 = ⟨rid.range, x.1.ingress⟩ := by rw [← hr]
    rw [hx2] at hx1
    exact hi.pendNot _ _ x.1.ingress x.2 hp hx1

/-! ### Slots -/

/-- **C95** (slots): when a slot is over, its validator's worker advances it, and this is accepted during the grace period. -/
theorem C95_slot_validator_advances (s : State) (nd : Node) (hauth : Avn.isValidator s.validators nd.me = true)
    (hslot : s.slotValidator = some nd.me) (hover : s.nextSlotAt ≤ s.block) (hgrace : s.block - s.nextSlotAt ≤ s.grace)
    (hlock : nd.lockedAdvance s.currentSlot = false) (h1 : s.currentSlot + 1 < 2 ^ 32) (h2 : s.nextSlotAt + s.schedulePeriod < 2 ^ 32) :
    Tx.advance ∈ workerRun H nd s ∧
    ∀ pub prop, (step refOf s (Tx.advance.toStep nd.me pub prop)).currentSlot = s.currentSlot + 1 := by
  constructor
  · unfold workerRun
    rw [if_neg (by rw [hauth]; simp)]
    simp only [List.mem_append]
    refine .inl (.inl (.inl (.inl ?_)))
    unfold advanceIfRequired
    rw [hslot]
    dsimp only
    rw [if_pos ⟨rfl, hover⟩, if_neg (by rw [hlock]; simp)]
    simp
  · intro pub prop
    simp only [Tx.toStep, step]
    rw [if_pos ⟨hslot, hauth⟩]
    obtain ⟨s', h3, h4⟩ := updateSlot_can (s := s) (who := nd.me) (by
      unfold canAdvance
      rw [if_neg (by omega), hslot]
      dsimp only
      rw [if_neg (by simp [graceElapsed]; omega), if_neg (by simp)]) (by rintro h; rw [h] at hauth; simp [Avn.isValidator] at hauth) h1 h2
    rw [h3]; exact h4

/-- **C95** (stuck slots): with at least two authors, once a slot's grace period is over, of any two consecutive blocks one has a primary
author other than the slot's validator; the worker of that author challenges the slot, and the challenge advances it. -/
theorem C95_stuck_slot_is_challenged (s : State) (v : Nat) (hslot : s.slotValidator = some v)
    (hacc : (s.validators.map (·.account)).Nodup) (htwo : 2 ≤ s.validators.length) (b : Nat)
    (hb : s.nextSlotAt + s.grace < b) (h1 : s.currentSlot + 1 < 2 ^ 32) (h2 : s.nextSlotAt + s.schedulePeriod < 2 ^ 32) :
    ∃ b' p, (b' = b ∨ b' = b + 1) ∧ Avn.isValidator s.validators p = true ∧ p ≠ v ∧
      ∀ nd : Node, nd.me = p → nd.lockedChallenge s.currentSlot = false →
        Tx.challenge s.currentSlot v ∈ workerRun H nd { s with block := b' } ∧
        ∀ later, b' ≤ later → ∀ pub prop,
          (step refOf { s with block := later } ((Tx.challenge s.currentSlot v).toStep p pub prop)).currentSlot = s.currentSlot + 1 := by
  have hlen : 0 < s.validators.length := by omega
  have hi : ∀ n, ∃ w, s.validators[n % s.validators.length]? = some w ∧ Avn.primaryForBlock s.validators n = .ok w.account := by
    intro n
    have hlt : n % s.validators.length < s.validators.length := Nat.mod_lt _ hlen
    refine ⟨s.validators[n % s.validators.length], List.getElem?_eq_getElem hlt, ?_⟩
    unfold Avn.primaryForBlock
    rw [if_neg (by rintro h; rw [h] at hlen; simp at hlen), List.getElem?_eq_getElem hlt]
  have hmod : (b + 1) % s.validators.length ≠ b % s.validators.length := by
    intro h
    have e : (b + 1 - b) % s.validators.length = 0 := Nat.sub_mod_eq_zero_of_mod_eq h
    rw [Nat.add_sub_cancel_left, Nat.mod_eq_of_lt (by omega)] at e
    omega
  obtain ⟨w0, g0, p0⟩ := hi b
  obtain ⟨w1, g1, p1⟩ := hi (b + 1)
  have hne : w0.account ≠ w1.account := by
    intro h
    have e0 : (s.validators.map (·.account))[b % s.validators.length]? = some w0.account := by simp [g0]
    have e1 : (s.validators.map (·.account))[(b + 1) % s.validators.length]? = some w0.account := by simp [g1, h]
    have hl : b % s.validators.length < (s.validators.map (·.account)).length := by
      rw [List.length_map]; exact Nat.mod_lt _ hlen
    exact hmod ((List.getElem?_inj hl hacc).1 (by rw [e0, e1])).symm
  have main : ∀ b' w, (b' = b ∨ b' = b + 1) → s.validators[b' % s.validators.length]? = some w →
      Avn.primaryForBlock s.validators b' = .ok w.account → w.account ≠ v →
      ∃ b' p, (b' = b ∨ b' = b + 1) ∧ Avn.isValidator s.validators p = true ∧ p ≠ v ∧
      ∀ nd : Node, nd.me = p → nd.lockedChallenge s.currentSlot = false →
        Tx.challenge s.currentSlot v ∈ workerRun H nd { s with block := b' } ∧
        ∀ later, b' ≤ later → ∀ pub prop,
          (step refOf { s with block := later } ((Tx.challenge s.currentSlot v).toStep p pub prop)).currentSlot = s.currentSlot + 1 := by
    intro b' w hb' hg hp hw
    have hauth : Avn.isValidator s.validators w.account = true := by
      unfold Avn.isValidator
      rw [List.any_eq_true]
      exact ⟨w, List.mem_of_getElem? hg, by simp⟩
    have hbb : b ≤ b' := by omega
    refine ⟨b', w.account, hb', hauth, hw, ?_⟩
    intro nd hme hlock
    constructor
    · unfold workerRun
      rw [if_neg (by dsimp only; rw [hme, hauth]; simp)]
      simp only [List.mem_append]
      refine .inr ?_
      unfold challengeIfRequired
      dsimp only
      rw [hslot]
      dsimp only
      rw [if_neg (by rw [hlock]; simp), hp]
      dsimp only
      rw [if_pos ⟨hme.symm, by simp [graceElapsed]; omega⟩]
      simp
    · intro later hlater pub prop
      simp only [Tx.toStep, step]
      rw [if_pos hauth]
      unfold addChallenge
      rw [if_neg (by simp [challengeValid, hslot, graceElapsed]; omega)]
      dsimp only
      obtain ⟨s', h3, h4⟩ := updateSlot_can
        (s := { s with block := later, log := s.log ++ [.offence .slotNotAdvanced [v]] }) (who := w.account) (by
          unfold canAdvance
          dsimp only
          rw [if_neg (by omega), hslot]
          dsimp only
          rw [if_pos (by simp [graceElapsed]; omega), if_neg hw]) (by rintro h; rw [h] at hlen; simp at hlen) h1 h2
      rw [h3]; exact h4
  by_cases hw : w0.account = v
  · exact main (b + 1) w1 (.inr rfl) g1 p1 (by rw [← hw]; exact fun h => hne h.symm)
  · exact main b w0 (.inl rfl) g0 p0 hw

/-- **C95** (two authors are needed): if the slot's validator is the only author, then once the grace period is over nobody can advance or
challenge the slot any more. -/
theorem C95_single_author_slot_is_stuck (s : State) (w : Avn.Validator) (hvs : s.validators = [w])
    (hslot : s.slotValidator = some w.account) (hb : s.nextSlotAt + s.grace < s.block) (who : Nat) :
    step refOf s (.advanceSlot who) = s ∧ ∀ n x y, step refOf s (.challenge n x y who) = s := by
  have hcan : ∀ l : List Event, Avn.isValidator s.validators who = true →
      updateSlot { s with log := l } who = .error .gracePeriodElapsed := by
    intro l h
    have hw : who = w.account := by
      rw [hvs] at h
      simp only [Avn.isValidator, List.any_cons, List.any_nil, Bool.or_false, beq_iff_eq] at h
      exact h.symm
    unfold updateSlot canAdvance
    dsimp only
    rw [if_neg (by omega), hslot]
    dsimp only
    rw [if_pos (by simp [graceElapsed]; omega), if_pos hw]
  constructor
  · simp only [step]
    by_cases hg : s.slotValidator = some who ∧ Avn.isValidator s.validators who = true
    · rw [if_pos hg]
      have := hcan s.log hg.2
      have e : ({ s with log := s.log } : State) = s := rfl
      rw [e] at this
      rw [this]; rfl
    · rw [if_neg hg]
  · intro n x y
    simp only [step]
    by_cases hg : Avn.isValidator s.validators who = true
    · rw [if_pos hg]
      unfold addChallenge
      by_cases hc : challengeValid s n y = false
      · rw [if_pos hc]; rfl
      · rw [if_neg hc]
        dsimp only
        rw [hcan _ hg]; rfl
    · rw [if_neg hg]

/-! ### Examples -/

/-- Author 11 may propose at block 36, and does. -/
example : Tx.record 30 exRoot 1 ∈ workerRun Merkle.toy (exNode 11 []) (run exRef exG exStart) ∧
    (run exRef exG exStart).pending ⟨0, 30⟩ = none ∧ (run exRef exG (exProposed exRoot)).pending ⟨0, 30⟩ = some 1 :=
  ⟨exPropose (s := run exRef exG exStart) (by decide +kernel) (by decide +kernel) (by decide +kernel)
      (by decide +kernel) exCompute30, by decide +kernel, by decide +kernel⟩

/-- After the proposal, authors 10 and 12 can vote, two approvals are needed, and the bridge takes the root. -/
example : Votable (run exRef exG (exProposed exRoot)) 10 exR1 ∧ Has (exNode 10 []) exR1.range ∧
    ((run exRef exG (exProposed exRoot)).votes exR1).map (·.threshold) = some 2 ∧
    CanAccept (run exRef exG (exProposed exRoot)) exRoot (some 5) true ∧
    Event.validated exR1 exRoot ∈ (run exRef (run exRef exG (exProposed exRoot)) (approvals exR1 [10, 12] (some 5) true)).log := by
  refine ⟨⟨by decide +kernel, ⟨2, [], [], 61, 36⟩, by decide +kernel, by decide +kernel, by decide, by decide⟩, ?_, by decide +kernel,
    .inr (.inr ⟨by decide +kernel, .inl ⟨by decide +kernel, rfl⟩⟩), by decide +kernel⟩
  intro n _ h
  exact ⟨by simp only [exR1, exNode, exClient] at h ⊢; omega, rfl⟩

/-- At block 62 the vote is over and author 13's worker lists it. -/
example : exR1 ∈ ((pendingIds (exNode 13 [⟨0, 30⟩]) (run exRef exG (exProposed exRoot ++ [.environment 62 exVs true false 5]))).filter
    (fun r => decide ((run exRef exG (exProposed exRoot ++ [.environment 62 exVs true false 5])).block >
      votingEnd (run exRef exG (exProposed exRoot ++ [.environment 62 exVs true false 5])) r))).take 5 := by decide +kernel

/-- The slot of author 10 is over at block 30 and stuck from block 36 on: author 11, the primary of block 37, challenges. -/
example : exG.slotValidator = some 10 ∧ exG.nextSlotAt + exG.grace < 36 ∧
    challengeIfRequired (exNode 11 []) { exG with block := 37 } = [.challenge 0 10] ∧
    challengeIfRequired (exNode 10 []) { exG with block := 36 } = [.challenge 0 10] := by decide +kernel

end Verif.SummaryWorker
