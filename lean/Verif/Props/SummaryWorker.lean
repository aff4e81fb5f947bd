import Verif.Lemmas.SummaryWorker
import Mathlib.Data.List.Perm.Subperm

/-!
# Property C94: a validated summary root is the Merkle root of the finalised chain

The chain every honest node finalises is a function `F` from block numbers to the block's encoded extrinsics. Honest accounts call
the summary pallet only through their off-chain worker (`workerRun`), run on some earlier state of the same history with a client
whose finalised blocks are `F`'s; everybody else's calls are arbitrary. `H` is the hash function, `refOf` the reference function of
C29–C35.
-/

namespace Verif.SummaryWorker

open Verif Verif.Summary

variable (refOf : RootId → Nat → Nat) (H : Bytes → Bytes)

/-! ### Specification -/

/-- All extrinsics of the chain `F` in the blocks of a range, in order. -/
def rangeExtrinsics (F : Nat → List Bytes) (r : Range) : List Bytes :=
  (List.range' r.fromBlock (r.toBlock + 1 - r.fromBlock)).flatMap F

/-- `h` is the root hash of the range on chain `F`: the Merkle root of its extrinsics as a number, 0 if it has none. -/
def IsTrueRoot (F : Nat → List Bytes) (r : Range) (h : Nat) : Prop :=
  (rangeExtrinsics F r = [] ∧ h = 0) ∨
  (rangeExtrinsics F r ≠ [] ∧ ∃ root, Merkle.treeRoot H (rangeExtrinsics F r) = some root ∧ h = beVal root)

/-- What the node's client has of the finalised chain is `F`. -/
def Faithful (F : Nat → List Bytes) (nd : Node) : Prop :=
  ∀ n xs, nd.client.block n = some xs → n ≤ nd.client.finalised → xs = F n

/-- The account in whose name an author's call is made. -/
def sender : Step → Option Nat
  | .record _ _ _ who => some who
  | .vote _ voter _ _ _ => some voter
  | .endVoting _ who _ _ => some who
  | .advanceSlot who => some who
  | .challenge _ _ _ who => some who
  | _ => none

/-- The call `op`, made after `pre`, was submitted by account `x`'s worker on a state of the history so far, with a client faithful to
`F`. -/
def ByWorker (F : Nat → List Bytes) (x : Nat) (g : State) (pre : List Step) (op : Step) : Prop :=
  ∃ (seen since : List Step) (nd : Node) (tx : Tx) (pub : Option Nat) (prop : Bool), pre = seen ++ since ∧ nd.me = x ∧
    Faithful F nd ∧ tx ∈ workerRun H nd (run refOf g seen) ∧ op = tx.toStep x pub prop

/-- A history in which the honest accounts' calls all come from their workers. -/
def HonestHistory (F : Nat → List Bytes) (honest : Nat → Prop) (g : State) (steps : List Step) : Prop :=
  ∀ pre op post x, steps = pre ++ op :: post → sender op = some x → honest x → ByWorker refOf H F x g pre op

/-- The root hash of a range is unique. -/
theorem isTrueRoot_unique {F : Nat → List Bytes} {r : Range} {h h' : Nat} (a : IsTrueRoot H F r h) (b : IsTrueRoot H F r h') :
    h = h' := by
  rcases a with ⟨a1, rfl⟩ | ⟨a1, ra, a2, rfl⟩ <;> rcases b with ⟨b1, rfl⟩ | ⟨b1, rb, b2, rfl⟩
  · rfl
  · exact absurd a1 b1
  · exact absurd b1 a1
  · rw [a2] at b2; cases b2; rfl

theorem computeRoot_true {F : Nat → List Bytes} {nd : Node} (hf : Faithful F nd) {r : Range} {h : Nat}
    (he : computeRoot H nd.client r.fromBlock r.toBlock = some h) : IsTrueRoot H F r h := computeRoot_some hf he

variable {refOf} {H}

theorem HonestHistory.nil (F : Nat → List Bytes) (honest : Nat → Prop) (g : State) : HonestHistory refOf H F honest g [] := by
  intro pre op post x h; simp at h

theorem HonestHistory.snoc {F : Nat → List Bytes} {honest : Nat → Prop} {g : State} {steps : List Step}
    (hh : HonestHistory refOf H F honest g steps) (op : Step)
    (h : ∀ x, sender op = some x → honest x → ByWorker refOf H F x g steps op) :
    HonestHistory refOf H F honest g (steps ++ [op]) := by
  intro pre o post x he hs hx
  rcases List.eq_nil_or_concat post with rfl | ⟨post', l, rfl⟩
  · obtain ⟨h1, h2⟩ := List.append_inj' he rfl
    cases h2; subst h1; exact h x hs hx
  · simp only [List.concat_eq_append, ← List.cons_append, ← List.append_assoc] at he
    obtain ⟨h1, h2⟩ := List.append_inj' he rfl
    exact hh pre o post' x h1 hs hx

variable (refOf) (H)

/-! ### C94 -/

/-- **C94.** If fewer dishonest accounts than the quorum of its proposal approved a root, and it was validated, then its hash is the
root hash of its range on the finalised chain. Partial: honest votes must have been produced on this very history (see
`C94_votes_do_not_bind_the_hash`). -/
theorem C94_validated_root_is_true_partial (F : Nat → List Bytes) (honest : Nat → Prop) (sp vp first : Nat)
    (vs : List Avn.Validator) (a e : Bool) (gr : Nat) (steps : List Step)
    (hh : HonestHistory refOf H F honest (genesis sp vp first vs a e gr) steps) (rid : RootId) (h : Nat) (bad : List Nat)
    (hbad : ∀ x, ApprovedBy refOf (genesis sp vp first vs a e gr) steps rid x → ¬ honest x → x ∈ bad)
    (hq : ∀ n, ProposedWith refOf (genesis sp vp first vs a e gr) steps rid n → bad.length < n - n * 2 / 3)
    (hm : .validated rid h ∈ (run refOf (genesis sp vp first vs a e gr) steps).log) : IsTrueRoot H F rid.range h := by
  obtain ⟨n, who, h1, h2, h3, h4⟩ := C30_validated_needs_quorum refOf sp vp first vs a e gr steps rid h hm
  have hx : ∃ x ∈ who, honest x := by
    refine Classical.byContradiction (fun hn => ?_)
    have hsub : who ⊆ bad := fun x hx => hbad x (h4 x hx) (fun hx' => hn ⟨x, hx, hx'⟩)
    have := (h2.subperm hsub).length_le
    have := hq n h1
    omega
  obtain ⟨x, hxw, hx⟩ := hx
  obtain ⟨pre, pub, prop, post, h5, _, _⟩ := h4 x hxw
  obtain ⟨seen, since, nd, tx, pub', prop', h6, h7, h8, h9, h10⟩ := hh pre _ post x h5 rfl hx
  have htx : tx = .vote rid true := by
    cases tx <;> simp [Tx.toStep] at h10
    obtain ⟨rfl, rfl, _⟩ := h10; rfl
  subst htx
  obtain ⟨r, hash, d, k1, _, k3, k4⟩ := vote_mem (vote_of_run h9)
  simp only [Tx.vote.injEq] at k1
  obtain ⟨rfl, k1⟩ := k1
  have k5 : hash = d.rootHash := by simpa using k1.symm
  have htrue := computeRoot_true H h8 k3
  have hi := inv_run (inv_genesis (refOf := refOf) sp vp first vs a e gr) seen
  obtain ⟨d', l1, l2, _⟩ := run_root hi (since ++ Step.vote rid x true pub prop :: post) rid d k4
  rw [← run_append, ← List.append_assoc, ← h6, ← h5] at l1
  obtain ⟨d2, m1, _, m3⟩ := (inv_run (inv_genesis (refOf := refOf) sp vp first vs a e gr) steps).vlog rid h hm
  rw [l1] at m1; cases m1
  rw [← m3, l2, ← k5]
  exact htrue

theorem record_ingress {s : State} {b h k who : Nat} (hch : step refOf s (.record b h k who) ≠ s) :
    wrapInc64 s.totalIngresses = k := by
  simp only [step] at hch
  by_cases hg : s.slotValidator = some who ∧ Avn.isValidator s.validators who = true
  · rw [if_pos hg] at hch
    unfold recordSummary at hch
    by_cases h1 : wrapInc64 s.totalIngresses ≠ k
    · rw [if_pos h1] at hch; exact absurd rfl hch
    · simpa using h1
  · rw [if_neg hg] at hch; exact absurd rfl hch

/-- **C94** (proposals): if the schedule is not changed while a root is pending, what an honest account proposes is the root hash of the
proposed range on the finalised chain. (The history is shorter than `2 ^ 64` calls, so that the ingress counter does not wrap.) -/
theorem C94_honest_proposals_are_true_partial (F : Nat → List Bytes) (honest : Nat → Prop) (sp vp first : Nat)
    (vs : List Avn.Validator) (a e : Bool) (gr : Nat) (hsp : 30 ≤ sp) (steps : List Step) (hl : steps.length < 2 ^ 64)
    (hqs : QuietSchedule refOf (genesis sp vp first vs a e gr) steps)
    (hh : HonestHistory refOf H F honest (genesis sp vp first vs a e gr) steps) (rid : RootId) (h who : Nat) (hw : honest who)
    (hm : .calculated rid h who ∈ (run refOf (genesis sp vp first vs a e gr) steps).log) : IsTrueRoot H F rid.range h := by
  obtain ⟨pre, op, post, h1, evs, h2, h3, h4⟩ := run_log_origin (refOf := refOf) _ steps _ hm (by simp [genesis])
  obtain ⟨h5, _, h6, h7⟩ := h4.prop rid h who h3
  subst h5
  obtain ⟨seen, since, nd, tx, pub', prop', k1, k2, k3, k4, k5⟩ := hh pre _ post who h1 rfl hw
  have htx : tx = .record rid.range.toBlock h rid.ingress := by
    cases tx <;> simp [Tx.toStep] at k5
    obtain ⟨rfl, rfl, rfl⟩ := k5; rfl
  subst htx
  obtain ⟨last, hash, l1, l2, l3, _, _, _, l7⟩ := propose_mem (record_of_run k4)
  simp only [Tx.record.injEq] at l1
  obtain ⟨rfl, rfl, l1⟩ := l1
  have hne : step refOf (run refOf (genesis sp vp first vs a e gr) pre) (.record rid.range.toBlock h rid.ingress who) ≠
      run refOf (genesis sp vp first vs a e gr) pre := by
    intro he
    rw [run_snoc, he] at h2
    have hnil : evs = [] := List.append_right_eq_self.1 h2.symm
    rw [hnil] at h3; simp at h3
  have hk := record_ingress refOf hne
  -- nothing was pending when the worker ran
  have hquiet : QuietSchedule refOf (genesis sp vp first vs a e gr) seen := by
    intro p o q hp ho
    exact hqs p o (q ++ since ++ Step.record rid.range.toBlock h rid.ingress who :: post)
      (by rw [h1, k1, hp]; simp) ho
  have ht := tile_run refOf (genesis sp vp first vs a e gr)
    { sp := hsp, pend := by simp [genesis], tiles := by simp [genesis, validatedRanges, TilesFrom] } seen hquiet
  have hidle : ∀ r, (run refOf (genesis sp vp first vs a e gr) seen).pending r = none := by
    intro r
    cases hp : (run refOf (genesis sp vp first vs a e gr) seen).pending r with
    | none => rfl
    | some k =>
      exfalso
      obtain ⟨p1, p2⟩ := ht.pend r k hp
      rw [l2] at p2
      simp only [Except.ok.injEq] at p2
      have hr : r = ⟨(run refOf (genesis sp vp first vs a e gr) seen).nextBlock, rid.range.toBlock⟩ := by
        cases r; simp only [Range.mk.injEq]; exact ⟨p1, p2.symm⟩
      rw [← hr] at l7
      simp [neitherPendingNorApproved, hp] at l7
  have hlen : (seen ++ since).length < 2 ^ 64 := by rw [h1, k1] at hl; simp only [List.length_append] at hl ⊢; omega
  obtain ⟨q1, q2⟩ := idle_run (refOf := refOf) (genesis sp vp first vs a e gr) rfl seen since hlen
  rw [← k1] at q1 q2
  have htot : (run refOf (genesis sp vp first vs a e gr) pre).totalIngresses =
      (run refOf (genesis sp vp first vs a e gr) seen).totalIngresses := by
    have b1 := total_le (refOf := refOf) (genesis sp vp first vs a e gr) rfl pre
    have b2 : pre.length + 1 ≤ steps.length := by rw [h1]; simp
    rw [l1] at hk
    unfold wrapInc64 at hk
    simp only [pow64] at hk
    rw [Nat.mod_eq_of_lt (by omega), Nat.mod_eq_of_lt (by omega)] at hk
    omega
  obtain ⟨_, hnext⟩ := q2 htot hidle
  rw [← hnext, ← h6] at l3
  exact computeRoot_true H k3 l3

/-! ### Example world: one extrinsic in block 3 -/

/-- The finalised chain. -/
def exF (n : Nat) : List Bytes := if n = 3 then [[1]] else []
/-- A client that has finalised 1000 blocks of it. -/
def exClient : Client := { finalised := 1000, block := fun n => some (exF n) }
/-- The node of account `x`. -/
def exNode (x : Nat) (order : List Range) : Node where
  me := x
  client := exClient
  order := order
  minAge := 5
  lockedAdvance := fun _ => false
  lockedCreate := fun _ => false
  lockedVote := fun _ => false
  lockedChallenge := fun _ => false
  poolTakes := fun _ => true
/-- The root hash of a range containing block 3. -/
def exRoot : Nat := beVal (Merkle.toy [1])

theorem exFaithful (x : Nat) (o : List Range) : Faithful exF (exNode x o) := by
  intro n xs h _; simp only [exNode, exClient, Option.some.injEq] at h; exact h.symm

theorem exTree : Merkle.treeRoot Merkle.toy [[1]] = some (Merkle.toy [1]) := by
  unfold Merkle.treeRoot Merkle.processLevel
  rw [dif_neg (by decide)]
  rfl

theorem exCompute (b : Nat) (h : leavesFrom exClient 0 (b + 1 - 0) = some [[1]]) :
    computeRoot Merkle.toy exClient 0 b = some exRoot := by
  unfold computeRoot rootHashAnswer rangeLeaves
  rw [h]
  dsimp only
  rw [if_neg (by decide), exTree]
  dsimp only
  decide +kernel

theorem exCompute30 : computeRoot Merkle.toy exClient 0 30 = some exRoot := exCompute 30 (by decide +kernel)
theorem exCompute60 : computeRoot Merkle.toy exClient 0 60 = some exRoot := exCompute 60 (by decide +kernel)
theorem exCompute90 : computeRoot Merkle.toy exClient 0 90 = some exRoot := exCompute 90 (by decide +kernel)

theorem exPropose {s : State} {x last : Nat} {o : List Range} (hv : Avn.isValidator s.validators x = true)
    (h0 : s.nextBlock = 0) (ht : targetBlock s = .ok last) (hc : canProcess (exNode x o) s last = true)
    (hr : computeRoot Merkle.toy exClient 0 last = some exRoot) :
    Tx.record last exRoot (wrapInc64 s.totalIngresses) ∈ workerRun Merkle.toy (exNode x o) s := by
  unfold workerRun
  rw [if_neg (by simp only [exNode]; rw [hv]; simp)]
  simp only [List.mem_append]
  refine .inl (.inl (.inl (.inr ?_)))
  unfold proposeIfRequired
  rw [ht]
  dsimp only
  rw [if_pos hc, h0]
  have : computeRoot Merkle.toy (exNode x o).client 0 last = some exRoot := hr
  rw [this]
  simp

theorem exVote {s : State} {x : Nat} {o : List Range} {rid : RootId} {d : RootData}
    (hv : Avn.isValidator s.validators x = true)
    (hl : ((pendingIds (exNode x o) s).filter (canVoteOn (exNode x o) s)).take maxSessions = [rid])
    (hr : computeRoot Merkle.toy exClient rid.range.fromBlock rid.range.toBlock = some exRoot)
    (hd : getRoot s.roots rid = some d) (hh : d.rootHash = exRoot) :
    Tx.vote rid true ∈ workerRun Merkle.toy (exNode x o) s := by
  unfold workerRun
  rw [if_neg (by simp only [exNode]; rw [hv]; simp)]
  simp only [List.mem_append]
  refine .inl (.inl (.inr ?_))
  unfold voteIfRequired
  rw [hl]
  unfold voteLoop
  have : computeRoot Merkle.toy (exNode x o).client rid.range.fromBlock rid.range.toBlock = some exRoot := hr
  rw [this]
  dsimp only
  rw [hd]
  dsimp only
  rw [if_pos (show (exNode x o).poolTakes rid = true from rfl), hh]
  simp

theorem exAdvance {s : State} {x : Nat} (hv : Avn.isValidator s.validators x = true)
    (ha : advanceIfRequired (exNode x []) s = [.advance]) : Tx.advance ∈ workerRun Merkle.toy (exNode x []) s := by
  unfold workerRun
  rw [if_neg (by simp only [exNode]; rw [hv]; simp)]
  simp [ha]

/-- Slot 0 is advanced at block 30; at block 36 author 11 may propose. -/
def exStart : List Step := [.environment 30 exVs true false 5, .advanceSlot 10, .environment 36 exVs true false 5]
/-- Author 11 proposes hash `h` for blocks 0 to 30, authors 10 and 12 approve. -/
def exProposed (h : Nat) : List Step := exStart ++ [.record 30 h 1 11]
/-- See `exProposed`. -/
def exFork (h : Nat) : List Step := exProposed h ++ [.vote exR1 10 true (some 5) true] ++ [.vote exR1 12 true (some 5) true]

theorem exStart_honest : HonestHistory exRef Merkle.toy exF (fun _ => True) exG exStart := by
  have h1 : HonestHistory exRef Merkle.toy exF (fun _ => True) exG [.environment 30 exVs true false 5] :=
    (HonestHistory.nil _ _ _).snoc _ (by intro x hx; simp [sender] at hx)
  refine HonestHistory.snoc (steps := [_, _]) (HonestHistory.snoc (steps := [_]) h1 _ ?_) _ (by intro x hx; simp [sender] at hx)
  intro x hx _
  simp only [sender, Option.some.injEq] at hx
  subst hx
  exact ⟨_, [], exNode 10 [], .advance, none, true, (List.append_nil _).symm, rfl, exFaithful _ _,
    exAdvance (by decide +kernel) (by decide +kernel), rfl⟩

theorem exProposed_honest : HonestHistory exRef Merkle.toy exF (fun _ => True) exG (exProposed exRoot) := by
  refine exStart_honest.snoc _ ?_
  intro x hx _
  simp only [sender, Option.some.injEq] at hx
  subst hx
  exact ⟨exStart, [], exNode 11 [], .record 30 exRoot 1, none, true, (List.append_nil _).symm, rfl, exFaithful _ _,
    exPropose (s := run exRef exG exStart) (by decide +kernel) (by decide +kernel) (by decide +kernel)
      (by decide +kernel) exCompute30, rfl⟩

theorem exVoted_honest : HonestHistory exRef Merkle.toy exF (fun _ => True) exG
    (exProposed exRoot ++ [.vote exR1 10 true (some 5) true]) := by
  refine exProposed_honest.snoc _ ?_
  intro x hx _
  simp only [sender, Option.some.injEq] at hx
  subst hx
  exact ⟨exProposed exRoot, [], exNode 10 [⟨0, 30⟩], .vote exR1 true, some 5, true, (List.append_nil _).symm, rfl, exFaithful _ _,
    exVote (s := run exRef exG (exProposed exRoot)) (rid := exR1) (d := ⟨exRoot, some 11, false, false, none⟩)
      (by decide +kernel) (by decide +kernel) exCompute30 (by decide +kernel) rfl, rfl⟩

/-- A history with honest accounts only, which validates the true root. -/
theorem exFork_honest : HonestHistory exRef Merkle.toy exF (fun _ => True) exG (exFork exRoot) := by
  refine exVoted_honest.snoc _ ?_
  intro x hx _
  simp only [sender, Option.some.injEq] at hx
  subst hx
  exact ⟨exProposed exRoot ++ [.vote exR1 10 true (some 5) true], [], exNode 12 [⟨0, 30⟩], .vote exR1 true, some 5, true, (List.append_nil _).symm, rfl, exFaithful _ _,
    exVote (s := run exRef exG (exProposed exRoot ++ [.vote exR1 10 true (some 5) true])) (rid := exR1)
      (d := ⟨exRoot, some 11, false, false, none⟩)
      (by decide +kernel) (by decide +kernel) exCompute30 (by decide +kernel) rfl, rfl⟩

/-- The hypotheses of C94 are met by a history that validates a root with a nonempty range. -/
example : HonestHistory exRef Merkle.toy exF (fun _ => True) exG (exFork exRoot) ∧
    Event.validated exR1 exRoot ∈ (run exRef exG (exFork exRoot)).log ∧
    Event.calculated exR1 exRoot 11 ∈ (run exRef exG (exFork exRoot)).log ∧
    rangeExtrinsics exF ⟨0, 30⟩ = [[1]] ∧ exRoot ≠ 0 :=
  ⟨exFork_honest, by decide +kernel, by decide +kernel, by decide +kernel, by decide +kernel⟩

/-- **C94** (the restriction is needed): a vote names a root id (block range and ingress number), not the hash voted on. If the
proposer gives different hashes to two forks, the honest votes cast on the fork with the true root are equally valid on the other fork,
and validate the false root there: on fork `B` all calls of honest accounts are calls their workers made on fork `A`, nobody
dishonest voted at all, and a false root is validated. -/
theorem C94_votes_do_not_bind_the_hash :
    ∃ (F : Nat → List Bytes) (honest : Nat → Prop) (A B : List Step) (rid : RootId) (h : Nat),
      HonestHistory exRef Merkle.toy F honest exG A ∧
      (∀ op ∈ B, ∀ x, sender op = some x → honest x → op ∈ A) ∧
      (∀ x, ApprovedBy exRef exG B rid x → honest x) ∧
      Event.validated rid h ∈ (run exRef exG B).log ∧ ¬ IsTrueRoot Merkle.toy F rid.range h := by
  refine ⟨exF, fun x => x ≠ 11, exFork exRoot, exFork 77, exR1, 77, ?_, ?_, ?_, by decide +kernel, ?_⟩
  · intro pre op post x h1 h2 _
    exact exFork_honest pre op post x h1 h2 trivial
  · intro op hop x hx hx'
    simp only [exFork, exProposed, exStart, List.mem_append, List.mem_cons, List.not_mem_nil, or_false] at hop ⊢
    rcases hop with ((h | rfl) | h) | h
    · exact .inl (.inl (.inl h))
    · simp only [sender, Option.some.injEq] at hx; exact absurd hx.symm hx'
    · exact .inl (.inr h)
    · exact .inr h
  · intro x hx
    obtain ⟨pre, pub, prop, post, h1, _⟩ := hx
    have : Step.vote exR1 x true pub prop ∈ exFork 77 := by rw [h1]; simp
    simp [exFork, exProposed, exStart] at this
    rcases this with ⟨rfl, _⟩ | ⟨rfl, _⟩ <;> decide
  · intro h
    have ht : IsTrueRoot Merkle.toy exF ⟨0, 30⟩ exRoot :=
      computeRoot_true Merkle.toy (exFaithful 10 []) (r := ⟨0, 30⟩) exCompute30
    have := isTrueRoot_unique Merkle.toy h ht
    revert this
    decide +kernel

/-- Schedule 60, voting 59: author 11 proposes blocks 0 to 60; then the schedule is lengthened to 90 and slot 2 begins. -/
def exLong : List Step :=
  [.setPeriods 60 59, .environment 60 exVs true false 5, .advanceSlot 10, .environment 66 exVs true false 5,
   .record 60 exRoot 1 11, .setVoting 25, .setSchedule 90, .environment 90 exVs true false 5, .advanceSlot 11,
   .environment 96 exVs true false 5]
/-- The schedule is shortened to 30 and the root of blocks 0 to 60 is approved. -/
def exShort : List Step := [.setSchedule 30, .vote exR60 10 true (some 5) true, .vote exR60 13 true (some 5) true]
where
  /-- The root of blocks 0 to 60. -/
  exR60 : RootId := ⟨⟨0, 60⟩, 1⟩

/-- **C94** (the restriction on schedule changes is needed for proposals): an honest author's worker proposes the root of blocks 0 to 90
while that of 0 to 60 is pending (the schedule was changed); after another change and the validation of 0 to 60 the same transaction is
accepted as the root of blocks 61 to 90, because it names only the last block and the ingress number. -/
theorem C94_honest_proposal_for_another_range :
    ∃ (F : Nat → List Bytes) (seen since : List Step) (who last h k : Nat) (nd : Node) (rid : RootId),
      nd.me = who ∧ Faithful F nd ∧ Tx.record last h k ∈ workerRun Merkle.toy nd (run exRef exG seen) ∧
      Event.calculated rid h who ∈ (run exRef exG (seen ++ since ++ [.record last h k who])).log ∧
      rid.ingress = k ∧ ¬ IsTrueRoot Merkle.toy F rid.range h := by
  refine ⟨exF, exLong, exShort, 12, 90, exRoot, 2, exNode 12 [], ⟨⟨61, 90⟩, 2⟩, rfl, exFaithful _ _,
    exPropose (s := run exRef exG exLong) (by decide +kernel) (by decide +kernel) (by decide +kernel) (by decide +kernel)
      exCompute90, by decide +kernel, rfl, ?_⟩
  rintro (⟨_, h⟩ | ⟨h, _⟩)
  · revert h; decide +kernel
  · exact h (by decide +kernel)

/-- **C94** (an expired vote blames the honest): everybody is honest and the root is true, but only one of the two necessary votes arrives
before the voting period is over. The worker that ends the vote has the proposer reported for creating, and the approver for approving,
an invalid root. -/
theorem C94_expired_vote_blames_honest_authors :
    ∃ (F : Nat → List Bytes) (steps : List Step), HonestHistory exRef Merkle.toy F (fun _ => True) exG steps ∧
      Event.offence .createdInvalidRoot [11] ∈ (run exRef exG steps).log ∧
      Event.offence .approvedInvalidRoot [10] ∈ (run exRef exG steps).log ∧
      Event.calculated exR1 exRoot 11 ∈ (run exRef exG steps).log ∧ IsTrueRoot Merkle.toy F exR1.range exRoot := by
  refine ⟨exF, exProposed exRoot ++ [.vote exR1 10 true (some 5) true] ++ [.environment 62 exVs true false 5] ++
    [.endVoting exR1 13 none true], ?_, by decide +kernel, by decide +kernel, by decide +kernel,
    computeRoot_true Merkle.toy (exFaithful 10 []) (r := ⟨0, 30⟩) exCompute30⟩
  refine (exVoted_honest.snoc _ (by intro x hx; simp [sender] at hx)).snoc _ ?_
  intro x hx _
  simp only [sender, Option.some.injEq] at hx
  subst hx
  refine ⟨_, [], exNode 13 [⟨0, 30⟩], .endVoting exR1, none, true, (List.append_nil _).symm, rfl, exFaithful _ _, ?_, rfl⟩
  unfold workerRun
  rw [if_neg (by decide +kernel)]
  simp only [List.mem_append]
  exact .inl (.inr (by decide +kernel))

end Verif.SummaryWorker
