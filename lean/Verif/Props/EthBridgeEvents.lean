import Verif.Lemmas.EthBridgeBlocks

/-!
# Properties C12–C16: incoming Ethereum events

Specification vocabulary used below: `handledHashes`, `approvedOf`, `blockVotesOf` project the log of what the pallet
did (events handed to the runtime, partitions processed, block votes cast).
-/

namespace Verif.EthBridge

open Verif.Events

variable {W : Type} (handler : W → EthEvent → W × Bool)

/-! ### A concrete world used by the examples -/

/-- Three authors, range size 10, and a handler that counts the events it sees. -/
def ex0 : State Nat := initial 0 [1, 2, 3, 4] 10
/-- A handler that counts. -/
def exHandler (w : Nat) (_ : EthEvent) : Nat × Bool := (w + 1, true)
/-- A lift event. -/
def exEvent : EthEvent := { signature := signature .lifted, txHash := 77, payload := 5 }
/-- A partition of the first range holding that lift. -/
def exPart : Partition := ⟨⟨100, 10⟩, 0, true, [⟨exEvent, 104⟩]⟩
/-- The same lift voted again in the next range. -/
def exPart2 : Partition := ⟨⟨110, 10⟩, 0, false, [⟨exEvent, 104⟩]⟩
/-- Block votes, then a quorum (2 of 4) for each of the two partitions. -/
def exSteps : List (Step Nat) :=
  [.submitBlock 1 158, .submitBlock 2 151, .submitEvents 1 exPart, .submitEvents 2 exPart,
   .submitEvents 3 exPart2, .submitEvents 1 exPart2]

/-! ### C12 -/

/-- **C12.** In every history, from every state, for every behaviour of the rest of the runtime: the log only grows,
each Ethereum transaction hash is handed to the runtime at most once, and never when it was already recorded as
processed at the start of the history (in particular after an earlier part of the history handled it). -/
theorem C12_event_handled_at_most_once (s : State W) (steps : List (Step W)) :
    ∃ new, (run handler s steps).log = s.log ++ new ∧ (handledHashes new).Nodup ∧
      ∀ h ∈ handledHashes new, s.processed h = none := by
  obtain ⟨new, hl, _, hn, hp⟩ := run_grow handler s steps
  exact ⟨new, hl, hn, fun h hh => (hp h hh).1⟩

/-- **C12, as a statement about the past.** Once a hash was handed to the runtime, no continuation hands it again. -/
theorem C12_never_again (s : State W) (pre post : List (Step W)) (h : Nat)
    (hh : ∃ new, (run handler s pre).log = s.log ++ new ∧ h ∈ handledHashes new) :
    ∃ new, (run handler s (pre ++ post)).log = (run handler s pre).log ++ new ∧ h ∉ handledHashes new := by
  obtain ⟨n1, hl1, hin⟩ := hh
  obtain ⟨n1', hl1', _, _, hp1⟩ := run_grow handler s pre
  have : n1 = n1' := by rw [hl1] at hl1'; exact List.append_cancel_left hl1'
  subst this
  obtain ⟨n2, hl2, _, _, hp2⟩ := run_grow handler (run handler s pre) post
  refine ⟨n2, by rw [run_append, hl2], fun hm => ?_⟩
  have h1 := (hp1 h hin).2
  simp [(hp2 h hm).1] at h1

/-- **C12, administrator.** Queueing an event that was already accepted as an additional event is refused. -/
theorem C12_admin_cannot_requeue_accepted (s : State W) (keep : List Nat) (h : Nat) (kind : ValidEvent)
    (hp : s.processed h = some (kind, true)) :
    admin s keep (.queueAdditional h) = (s, some .eventAlreadyAccepted) := by
  simp [admin, alreadyAccepted, hp]

/-- Non-vacuity: the lift of `exPart` is handled once although two approved partitions contain it. -/
example : handledHashes (run exHandler ex0 exSteps).log = [77] ∧
    (run exHandler ex0 exSteps).world = 1 ∧ (approvedOf (run exHandler ex0 exSteps).log) = [exPart, exPart2] := by
  decide +kernel

/-! ### C13 -/

/-- Author `a` cast a valid vote for `p` during `steps`: some step is the call, made while `a` was an author, and the
call succeeded. -/
def CastVote (s0 : State W) (steps : List (Step W)) (a : Nat) (p : Partition) : Prop :=
  ∃ pre post, steps = pre ++ .submitEvents a p :: post ∧ a ∈ (run handler s0 pre).authors ∧
    (submitEvents handler (run handler s0 pre) a p).2 = none

theorem CastVote.mono {s0 : State W} {steps : List (Step W)} {a : Nat} {p : Partition} (op : Step W)
    (h : CastVote handler s0 steps a p) : CastVote handler s0 (steps ++ [op]) a p := by
  obtain ⟨pre, post, rfl, h1, h2⟩ := h
  exact ⟨pre, post ++ [op], by simp, h1, h2⟩

theorem run_votes_inv (s0 : State W) (h0 : s0.votes = []) (steps : List (Step W)) :
    MapInv (run handler s0 steps).votes ∧
      ∀ p vs a, (p, vs) ∈ (run handler s0 steps).votes → a ∈ vs → CastVote handler s0 steps a p := by
  induction steps using List.reverseRecOn with
  | nil => simp [run, h0, MapInv.nil]
  | append_singleton steps op ih =>
    rw [run_snoc]
    have hv := step_view handler (run handler s0 steps) op
    generalize hs : run handler s0 steps = s at hv ih
    generalize step handler s op = s' at hv
    obtain ⟨im, ic⟩ := ih
    cases hv with
    | vote a p act vs hauth hok hact hr hn hv hi hq =>
      refine ⟨(im.insert hv hi).1, ?_⟩
      intro p' vs' a' hm ha
      rcases setVotes_mem _ _ _ _ hm with he | he
      · simp only [Prod.mk.injEq] at he
        obtain ⟨rfl, rfl⟩ := he
        rw [tryInsert_new hv hi] at ha
        rcases List.mem_append.1 ha with ha | ha
        · exact (ic _ _ _ (lookupVotes_mem _ _ _ ha) ha).mono handler _
        · have : a' = a := by simpa using ha
          subst this
          exact ⟨steps, [], rfl, by rw [hs]; exact hauth, by rw [hs]; exact hok⟩
      · exact (ic _ _ _ he ha).mono handler _
    | approve a p act vs s' _ _ _ _ _ _ _ _ hvotes => simp [hvotes, MapInv.nil]
    | block => exact ⟨im, fun p vs a hm ha => (ic p vs a hm ha).mono handler _⟩
    | select => exact ⟨im, fun p vs a hm ha => (ic p vs a hm ha).mono handler _⟩
    | quiet op s' _ _ _ _ hvotes =>
      rcases hvotes with hv | ⟨n, keep, hv⟩
      · rw [hv]; exact ⟨im, fun p vs a hm ha => (ic p vs a hm ha).mono handler _⟩
      · rw [hv]
        have hsub := clearVotes_sublist n keep s.votes
        exact ⟨im.sublist hsub, fun p vs a hm ha => (ic p vs a (hsub.mem hm) ha).mono handler _⟩

/-- **C13.** If the last step of a history made the pallet process partition `p`, then a quorum (of the authors at
that moment) of pairwise different accounts had cast successful votes, each while being an author, for exactly `p`
(same range, number, last flag and events). -/
theorem C13_partition_needs_quorum (s0 : State W) (h0 : s0.votes = []) (steps : List (Step W)) (op : Step W)
    (p : Partition) (new : List Obs)
    (hl : (run handler s0 (steps ++ [op])).log = (run handler s0 steps).log ++ new) (hp : p ∈ approvedOf new) :
    ∃ voters : List Nat, voters.Nodup ∧ quorum (run handler s0 steps).authors ≤ voters.length ∧
      ∀ a ∈ voters, CastVote handler s0 (steps ++ [op]) a p := by
  rw [run_snoc] at hl
  obtain ⟨im, ic⟩ := run_votes_inv handler s0 h0 steps
  have hv := step_view handler (run handler s0 steps) op
  generalize hs : run handler s0 steps = s at hv im ic hl
  generalize step handler s op = s' at hv hl
  cases hv with
  | vote a q act vs =>
    have : new = [.eventVote a q] := (List.append_cancel_left hl).symm
    subst this; simp [approvedOf] at hp
  | approve a q act vs s' hauth hok hact hr hn hv hi hq hvotes hauths hsub hact' hqueue hgrow new' hlog hnew =>
    have : new = [.eventVote a q, .approved q] ++ new' := by
      rw [hlog] at hl; exact (List.append_cancel_left hl).symm
    subst this
    have hq' : approvedOf new' = [] := by
      unfold approvedOf
      rw [List.filterMap_eq_nil_iff]
      intro o ho
      obtain ⟨d, _, rfl | rfl | rfl⟩ := hnew o ho <;> rfl
    have hpq : p = q := by
      rw [approvedOf_append, hq'] at hp
      simpa [approvedOf] using hp
    subst hpq
    have hvs := tryInsert_new hv hi
    refine ⟨vs, ?_, hq, ?_⟩
    · rw [hvs, List.nodup_append]
      refine ⟨lookup_nodup im p, by simp, ?_⟩
      intro x hx y hy hxy
      have : y = a := by simpa using hy
      subst this; subst hxy
      exact hasVoted_false _ _ hv _ (lookupVotes_mem _ _ _ hx) hx
    · intro b hb
      rw [hvs] at hb
      rcases List.mem_append.1 hb with hb | hb
      · exact (ic _ _ _ (lookupVotes_mem _ _ _ hb) hb).mono handler _
      · have : b = a := by simpa using hb
        subst this
        exact ⟨steps, [], rfl, by rw [hs]; exact hauth, by rw [hs]; exact hok⟩
  | block a l b vs =>
    have : new = [.blockVote a b] := (List.append_cancel_left hl).symm
    subst this; simp [approvedOf] at hp
  | select a l b vs r =>
    have : new = [.blockVote a b, .rangeSelected r] := by
      simp only [List.append_assoc] at hl
      exact (List.append_cancel_left hl).symm
    subst this; simp [approvedOf] at hp
  | quiet op s' hlog =>
    have : new = [] := by rw [hlog] at hl; simpa using hl
    subst this; simp [approvedOf] at hp

/-- **C13, converse direction of "processed".** An event reaches the runtime only inside a step that approves a
partition containing it. -/
theorem C13_events_only_from_approved_partitions (s : State W) (op : Step W) (e : EthEvent) (new : List Obs)
    (hl : (step handler s op).log = s.log ++ new) (he : Obs.handled e ∈ new) :
    ∃ p, p ∈ approvedOf new ∧ ∃ d ∈ p.events, d.event = e := by
  have hv := step_view handler s op
  generalize step handler s op = s' at hv hl
  cases hv with
  | vote a q act vs =>
    have : new = [.eventVote a q] := (List.append_cancel_left hl).symm
    subst this; simp at he
  | approve a q act vs s' hauth hok hact hr hn hv hi hq hvotes hauths hsub hact' hqueue hgrow new' hlog hnew =>
    have : new = [.eventVote a q, .approved q] ++ new' := by
      rw [hlog] at hl; exact (List.append_cancel_left hl).symm
    subst this
    have he' : Obs.handled e ∈ new' := by simpa using he
    obtain ⟨d, hd, h | h | h⟩ := hnew _ he'
    · exact ⟨q, by simp [approvedOf], d, hd, by simpa using h.symm⟩
    · simp at h
    · simp at h
  | block a l b vs =>
    have : new = [.blockVote a b] := (List.append_cancel_left hl).symm
    subst this; simp at he
  | select a l b vs r =>
    have : new = [.blockVote a b, .rangeSelected r] := by
      simp only [List.append_assoc] at hl
      exact (List.append_cancel_left hl).symm
    subst this; simp at he
  | quiet op s' hlog =>
    have : new = [] := by rw [hlog] at hl; simpa using hl
    subst this; simp at he

/-- **C13, one live vote per author.** In every reachable state an author's account occurs in the vote set of at most
one partition, and once in it. -/
theorem C13_one_live_vote (s0 : State W) (h0 : s0.votes = []) (steps : List (Step W)) (a : Nat)
    (p q : Partition) (vs ws : List Nat) (hp : (p, vs) ∈ (run handler s0 steps).votes)
    (hq : (q, ws) ∈ (run handler s0 steps).votes) (ha : a ∈ vs) (hb : a ∈ ws) :
    p = q ∧ vs = ws ∧ vs.count a = 1 := by
  obtain ⟨im, _⟩ := run_votes_inv handler s0 h0 steps
  have h1 : (a, p) ∈ flat (run handler s0 steps).votes := (mem_flat _ _ _).2 ⟨vs, hp, ha⟩
  have h2 : (a, q) ∈ flat (run handler s0 steps).votes := (mem_flat _ _ _).2 ⟨ws, hq, hb⟩
  have hpq : (a, p) = (a, q) := List.inj_on_of_nodup_map im.2 h1 h2 rfl
  have hpq' : p = q := by simpa using hpq
  subst hpq'
  have : (p, vs) = (p, ws) := List.inj_on_of_nodup_map im.1 hp hq rfl
  refine ⟨rfl, by simpa using this, ?_⟩
  exact List.count_eq_one_of_mem (im.set_nodup hp) ha

/-- Non-vacuity: the second vote of `exSteps` approves the partition with quorum two. -/
example : approvedOf (run exHandler ex0 (exSteps.take 3)).log = [] ∧
    approvedOf (run exHandler ex0 (exSteps.take 4)).log = [exPart] ∧
    (run exHandler ex0 (exSteps.take 3)).votes = [(exPart, [1])] ∧ quorum [1, 2, 3, 4] = 2 := by
  decide +kernel

/-! ### C14 -/

/-- `q` is the position after the approved partition `p`: the following block range with partition 0 if `p` was the
last of its range, else the same range and the next number (both counters saturate at their type's maximum). -/
def Follows (p : Partition) (range : Range) (number : Nat) : Prop :=
  if p.isLast then
    range.start = min (p.range.start + p.range.length) (2 ^ 32 - 1) ∧ range.length = p.range.length ∧ number = 0
  else range = p.range ∧ number = min (p.number + 1) (2 ^ 16 - 1)

theorem run_chain (s0 : State W) (h0 : s0.log = []) (steps : List (Step W)) :
    (approvedOf (run handler s0 steps).log).IsChain (fun p q => Follows p q.range q.number) ∧
      ∀ p, (approvedOf (run handler s0 steps).log).getLast? = some p →
        ∃ act, (run handler s0 steps).active = some act ∧ Follows p act.range act.partition := by
  induction steps using List.reverseRecOn with
  | nil => simp [run, h0, approvedOf]
  | append_singleton steps op ih =>
    rw [run_snoc]
    have hv := step_view handler (run handler s0 steps) op
    generalize hs : run handler s0 steps = s at hv ih
    generalize step handler s op = s' at hv
    obtain ⟨ic, il⟩ := ih
    cases hv with
    | vote a p act vs =>
      have ha : approvedOf (s.log ++ [Obs.eventVote a p]) = approvedOf s.log := by simp [approvedOf]
      simp only [ha]
      exact ⟨ic, il⟩
    | approve a q act vs s' hauth hok hact hr hn hv hi hq hvotes hauths hsub hact' hqueue hgrow new' hlog hnew =>
      have hq' : approvedOf new' = [] := by
        unfold approvedOf
        rw [List.filterMap_eq_nil_iff]
        intro o ho
        obtain ⟨d, _, rfl | rfl | rfl⟩ := hnew o ho <;> rfl
      have ha : approvedOf s'.log = approvedOf s.log ++ [q] := by
        rw [hlog, approvedOf_append, approvedOf_append, hq']; simp [approvedOf]
      rw [ha]
      refine ⟨?_, ?_⟩
      · rw [List.isChain_append]
        refine ⟨ic, by simp, ?_⟩
        intro x hx y hy
        have : y = q := by simpa using hy.symm
        subst this
        obtain ⟨act', h1, h2⟩ := il x hx
        have : act' = act := by rw [h1] at hact; simpa using hact
        subst this
        rw [hr, hn]; exact h2
      · intro x hx
        have : x = q := by simpa using hx.symm
        subst this
        refine ⟨_, hact', ?_⟩
        cases hl : x.isLast <;> simp [Follows, hl, Range.next, maxU32, maxU16, hr, hn]
    | block a l b vs =>
      have ha : approvedOf (s.log ++ [Obs.blockVote a b]) = approvedOf s.log := by simp [approvedOf]
      simp only [ha]
      exact ⟨ic, il⟩
    | select a l b vs r hauth hact =>
      have ha : approvedOf (s.log ++ [Obs.blockVote a b] ++ [Obs.rangeSelected r]) = approvedOf s.log := by
        simp [approvedOf]
      simp only [ha]
      refine ⟨ic, ?_⟩
      intro p hp
      obtain ⟨act, h1, _⟩ := il p hp
      simp [hact] at h1
    | quiet op s' hlog hact => rw [hlog, hact]; exact ⟨ic, il⟩

/-- **C14.** In every history the partitions processed form a gap-free sequence: each is the position that follows the
previous one, and the active position is the one following the last processed partition. -/
theorem C14_approved_partitions_are_contiguous (s0 : State W) (h0 : s0.log = []) (steps : List (Step W)) :
    (approvedOf (run handler s0 steps).log).IsChain (fun p q => Follows p q.range q.number) ∧
      ∀ p, (approvedOf (run handler s0 steps).log).getLast? = some p →
        ∃ act, (run handler s0 steps).active = some act ∧ Follows p act.range act.partition :=
  run_chain handler s0 h0 steps

/-- **C14, no gap and no overlap.** Below the `u32` limit, the range after a finished one starts exactly one block
after its last block. -/
theorem C14_next_range_starts_after_end (p : Partition) (range : Range) (n : Nat) (h : Follows p range n)
    (hlast : p.isLast = true) (hlen : 0 < p.range.length) (hmax : p.range.start + p.range.length < 2 ^ 32) :
    range.start = p.range.endBlock + 1 ∧ range.length = p.range.length ∧ n = 0 := by
  simp only [Follows, hlast, if_true] at h
  obtain ⟨h1, h2, h3⟩ := h
  refine ⟨?_, h2, h3⟩
  simp only [Range.endBlock, maxU32]
  omega

/-- **C14, nothing else moves the position.** A step that processes no partition keeps the active position, and so does
every change of instance, author set, restart of discovery, or activity elsewhere. -/
theorem C14_position_changes_only_on_approval (s : State W) (op : Step W) (act : Active) (ha : s.active = some act)
    (new : List Obs) (hl : (step handler s op).log = s.log ++ new) (hn : approvedOf new = []) :
    (step handler s op).active = some act := by
  have hv := step_view handler s op
  generalize step handler s op = s' at hv hl
  cases hv with
  | vote a p act vs => exact ha
  | approve a q act' vs s' hauth hok hact hr hn' hv hi hq hvotes hauths hsub hact' hqueue hgrow new' hlog hnew =>
    have : new = [.eventVote a q, .approved q] ++ new' := by
      rw [hlog] at hl; exact (List.append_cancel_left hl).symm
    subst this
    simp [approvedOf] at hn
  | block a l b vs => exact ha
  | select a l b vs r hauth hact => simp [ha] at hact
  | quiet op s' hlog hact => rw [hact]; exact ha

/-- **C14, an approved partition is the active one.** -/
theorem C14_approved_is_active (s : State W) (op : Step W) (p : Partition) (new : List Obs)
    (hl : (step handler s op).log = s.log ++ new) (hp : p ∈ approvedOf new) :
    ∃ act act', s.active = some act ∧ p.range = act.range ∧ p.number = act.partition ∧
      (step handler s op).active = some act' ∧ Follows p act'.range act'.partition := by
  have hv := step_view handler s op
  generalize step handler s op = s' at hv hl
  cases hv with
  | vote a q act vs =>
    have : new = [.eventVote a q] := (List.append_cancel_left hl).symm
    subst this; simp [approvedOf] at hp
  | approve a q act vs s' hauth hok hact hr hn hv hi hq hvotes hauths hsub hact' hqueue hgrow new' hlog hnew =>
    have : new = [.eventVote a q, .approved q] ++ new' := by
      rw [hlog] at hl; exact (List.append_cancel_left hl).symm
    subst this
    have hq' : approvedOf new' = [] := by
      unfold approvedOf
      rw [List.filterMap_eq_nil_iff]
      intro o ho
      obtain ⟨d, _, rfl | rfl | rfl⟩ := hnew o ho <;> rfl
    have hpq : p = q := by
      rw [approvedOf_append, hq'] at hp
      simpa [approvedOf] using hp
    subst hpq
    refine ⟨act, _, hact, hr, hn, hact', ?_⟩
    cases hl : p.isLast <;> simp [Follows, hl, Range.next, maxU32, maxU16, hr, hn]
  | block a l b vs =>
    have : new = [.blockVote a b] := (List.append_cancel_left hl).symm
    subst this; simp [approvedOf] at hp
  | select a l b vs r =>
    have : new = [.blockVote a b, .rangeSelected r] := by
      simp only [List.append_assoc] at hl
      exact (List.append_cancel_left hl).symm
    subst this; simp [approvedOf] at hp
  | quiet op s' hlog =>
    have : new = [] := by rw [hlog] at hl; simpa using hl
    subst this; simp [approvedOf] at hp

/-- Non-vacuity. -/
example : (run exHandler ex0 (exSteps.take 2)).active.map (fun a => (a.range.start, a.partition)) = some (100, 0) ∧
    (run exHandler ex0 (exSteps.take 4)).active.map (fun a => (a.range.start, a.partition)) = some (110, 0) ∧
    (run exHandler ex0 exSteps).active.map (fun a => (a.range.start, a.partition)) = some (110, 1) := by
  decide +kernel

/-! ### C15 -/

theorem run_blocks_inv (s0 : State W) (h0 : s0.submitted = []) (hl0 : s0.log = []) (steps : List (Step W)) :
    MapInv (run handler s0 steps).submitted ∧ (∀ e ∈ (run handler s0 steps).submitted, e.2 ≠ []) ∧
      ((run handler s0 steps).active = none →
        (flat (run handler s0 steps).submitted).Perm (blockVotesOf (run handler s0 steps).log)) := by
  induction steps using List.reverseRecOn with
  | nil => simp [run, h0, hl0, MapInv.nil, flat, blockVotesOf]
  | append_singleton steps op ih =>
    rw [run_snoc]
    have hv := step_view handler (run handler s0 steps) op
    generalize hs : run handler s0 steps = s at hv ih
    generalize step handler s op = s' at hv
    obtain ⟨im, ie, ip⟩ := ih
    cases hv with
    | vote a p act vs hauth hok hact =>
      refine ⟨im, ie, fun h => ?_⟩
      simp [hact] at h
    | approve a q act vs s' hauth hok hact hr hn hv hi hq hvotes hauths hsub hact' =>
      rw [hsub]
      refine ⟨im, ie, fun h => ?_⟩
      simp [hact'] at h
    | block a l b vs hauth hact hv hb hi hq =>
      obtain ⟨h1, h2⟩ := im.insert hv hi
      refine ⟨h1, ?_, fun h => ?_⟩
      · intro e he
        rcases setVotes_mem _ _ _ _ he with rfl | he
        · rw [tryInsert_new hv hi]; simp
        · exact ie e he
      · have h3 := h2.trans ((ip h).cons _)
        refine h3.trans ?_
        have : blockVotesOf (s.log ++ [Obs.blockVote a b]) = blockVotesOf s.log ++ [(a, b)] := by
          simp [blockVotesOf]
        simp only [this]
        exact (List.perm_append_singleton _ _).symm
    | select a l b vs r => exact ⟨MapInv.nil, by simp, fun h => by simp at h⟩
    | quiet op s' hlog hact hsub => rw [hlog, hact, hsub]; exact ⟨im, ie, ip⟩

/-- **C15.** When a step of any history from genesis concludes the vote on the start block, let `V` be the multiset of
all blocks voted for so far, the concluding vote included. The selected range has the configured length and its start
block was voted for, at least a quorum of the votes are for it or a later block, and more than
(supermajority - quorum) are for it or an earlier block. -/
theorem C15_selected_block (w : W) (authors : List Nat) (size : Nat) (steps : List (Step W)) (op : Step W)
    (act : Active) (h1 : (run handler (initial w authors size) steps).active = none)
    (h2 : (run handler (initial w authors size) (steps ++ [op])).active = some act) :
    let V := (blockVotesOf (run handler (initial w authors size) (steps ++ [op])).log).map Prod.snd
    let now := (run handler (initial w authors size) steps).authors
    act.range.length = (run handler (initial w authors size) steps).rangeSize ∧ act.partition = 0 ∧
      act.range.start ∈ V ∧
      quorum now ≤ V.countP (fun b => decide (act.range.start ≤ b)) ∧
      supermajority now - quorum now < V.countP (fun b => decide (b ≤ act.range.start)) := by
  intro V now
  obtain ⟨im, ie, ip⟩ := run_blocks_inv handler (initial w authors size) rfl rfl steps
  have hV : V = (blockVotesOf (run handler (initial w authors size) (steps ++ [op])).log).map Prod.snd := rfl
  have hnow : now = (run handler (initial w authors size) steps).authors := rfl
  rw [run_snoc] at h2 hV
  generalize run handler (initial w authors size) steps = s at h1 h2 hV hnow im ie ip ⊢
  have hv := step_view handler s op
  generalize step handler s op = s' at hv h2 hV
  clear_value V now
  subst hnow
  cases hv with
  | vote a p act vs hauth hok hact => simp [h1] at hact
  | approve a q act vs s' hauth hok hact => simp [h1] at hact
  | block a l b vs => simp [h1] at h2
  | quiet op s' hlog hact => simp [hact, h1] at h2
  | select a l b vs r hauth hact hv hb hi hq hsel =>
    simp only [Option.some.injEq] at h2
    subst h2
    obtain ⟨m1, m2⟩ := im.insert hv hi
    have hbv : blockVotesOf (s.log ++ [Obs.blockVote a b] ++ [Obs.rangeSelected r]) = blockVotesOf s.log ++ [(a, b)] := by
      simp [blockVotesOf]
    have hperm : V.Perm ((flat (setVotes s.submitted b vs)).map Prod.snd) := by
      rw [hV, hbv]
      refine List.Perm.map _ ?_
      exact (List.perm_append_singleton _ _).trans (((ip h1).symm.cons _).trans m2.symm)
    have hne : ∀ e ∈ setVotes s.submitted b vs, e.2 ≠ [] := by
      intro e he
      rcases setVotes_mem _ _ _ _ he with rfl | he
      · rw [tryInsert_new hv hi]; simp
      · exact ie e he
    have hn : 0 < s.authors.length := List.length_pos_of_mem hauth
    have hq0 : 0 < quorum s.authors := by unfold quorum Avn.requiredFor; omega
    have hcne : setVotes s.submitted b vs ≠ [] := by
      intro h
      have := m2.length_eq
      simp [h, flat] at this
    have hsum : ((sortPairs ((setVotes s.submitted b vs).map (fun e => (e.1, e.2.length)))).map Prod.snd).sum =
        (((setVotes s.submitted b vs).map (fun e => (e.1, e.2.length))).map Prod.snd).sum :=
      ((sortPairs_perm _).map Prod.snd).sum_nat
    obtain ⟨b', hb'⟩ := selectBlock_some (quorum s.authors) hq0
      (sortPairs ((setVotes s.submitted b vs).map (fun e => (e.1, e.2.length)))) (supermajority s.authors)
      (by rw [hsum]; exact hq)
      (by
        intro h
        have := (sortPairs_perm ((setVotes s.submitted b vs).map (fun e => (e.1, e.2.length)))).length_eq
        rw [h] at this
        simp at this
        exact hcne (List.length_eq_zero_iff.1 this.symm))
    rw [hb'] at hsel
    subst hsel
    have hpos : ∀ e ∈ (setVotes s.submitted b vs).map (fun e => (e.1, e.2.length)), 0 < e.2 := by
      intro e he
      obtain ⟨x, hx, rfl⟩ := List.mem_map.1 he
      exact List.length_pos_of_ne_nil (hne x hx)
    obtain ⟨c1, c2, c3⟩ := select_counts s.authors.length hn _ b' hpos hq hb'
    refine ⟨rfl, rfl, ?_, ?_, ?_⟩
    · obtain ⟨c, hc⟩ := c1
      obtain ⟨x, hx, hxe⟩ := List.mem_map.1 hc
      obtain ⟨v, hvv⟩ := List.exists_mem_of_ne_nil _ (hne x hx)
      rw [hperm.mem_iff]
      refine List.mem_map.2 ⟨(v, b'), ?_, rfl⟩
      refine (mem_flat _ _ _).2 ⟨x.2, ?_, hvv⟩
      have : x.1 = b' := by simpa using congrArg Prod.fst hxe
      rw [← this]; exact hx
    · rw [hperm.countP_eq, List.countP_map]
      have := countP_flat (setVotes s.submitted b vs) (fun x => decide (b' ≤ x))
      simp only [Function.comp_def]
      rw [this]; exact c2
    · rw [hperm.countP_eq, List.countP_map]
      have := countP_flat (setVotes s.submitted b vs) (fun x => decide (x ≤ b'))
      simp only [Function.comp_def]
      rw [this]; exact c3

/-- **C15, one vote each.** While the vote is open, no account has two block votes. -/
theorem C15_one_block_vote_each (w : W) (authors : List Nat) (size : Nat) (steps : List (Step W))
    (h1 : (run handler (initial w authors size) steps).active = none) :
    ((blockVotesOf (run handler (initial w authors size) steps).log).map Prod.fst).Nodup := by
  obtain ⟨im, _, ip⟩ := run_blocks_inv handler (initial w authors size) rfl rfl steps
  exact (((ip h1).map Prod.fst).nodup_iff).1 im.2

/-- Non-vacuity: with authors 1..6 (quorum 2, supermajority 4) and votes 100, 90, 100, 120 the vote closes on 100. -/
example :
    let s := run exHandler (initial 0 [1, 2, 3, 4, 5, 6] 10)
      [.submitBlock 1 158, .submitBlock 2 141, .submitBlock 3 151]
    s.active = none ∧ (step exHandler s (.submitBlock 5 170)).active.map (fun a => a.range.start) = some 100 := by
  decide +kernel

/-! ### C16 -/

/-- **C16, shape.** There is at least one partition; the i-th carries the given range, number `i` (as a `u16`), at most
32 events, is flagged last iff it is the final one, and holds no two equal neighbours. -/
theorem C16_partition_shape (range : Range) (events : List Discovered) :
    createPartitions range events ≠ [] ∧
    ∀ (i : Nat) (p : Partition), (createPartitions range events)[i]? = some p →
      p.range = range ∧ p.number = i % 2 ^ 16 ∧ p.events.length ≤ 32 ∧
      (p.isLast = true ↔ i + 1 = (createPartitions range events).length) ∧ p.events.IsChain (· ≠ ·) := by
  simp only [createPartitions]
  split
  · refine ⟨by simp, ?_⟩
    intro i p hp
    cases i with
    | zero => simp at hp; subst hp; simp
    | succ i => simp at hp
  · rename_i hne
    refine ⟨hne, ?_⟩
    intro i p hp
    rw [number_get] at hp
    obtain ⟨c, hc, rfl⟩ := Option.map_eq_some_iff.1 hp
    have hmem := List.mem_of_getElem? hc
    refine ⟨rfl, by simp, ?_, ?_, dedupAdj_chain c⟩
    · exact Nat.le_trans (dedupAdj_sublist c).length_le (chunksAux_len 32 _ _ c hmem)
    · rw [number_length]; simp; omega

/-- **C16, nothing lost, nothing invented.** An event is in some partition iff it was discovered. -/
theorem C16_no_event_lost (range : Range) (events : List Discovered) (d : Discovered) :
    (∃ p ∈ createPartitions range events, d ∈ p.events) ↔ d ∈ events := by
  have h : (∃ p ∈ createPartitions range events, d ∈ p.events) ↔
      d ∈ (createPartitions range events).flatMap Partition.events := by simp
  rw [h, createPartitions_events]
  have h2 : d ∈ (chunks 32 (sortD events)).flatMap dedupAdj ↔ d ∈ (chunks 32 (sortD events)).flatten := by
    simp [List.mem_flatMap, List.mem_flatten, dedupAdj_mem]
  rw [h2, chunks_flatten 32 (by omega)]
  exact (sortD_perm events).mem_iff

/-- **C16, order.** The concatenation of the partitions is ordered by (block, transaction hash) and is a sublist of the
sorted input; if no event was reported twice it is exactly a rearrangement of the input. -/
theorem C16_partitions_are_the_sorted_input (range : Range) (events : List Discovered) :
    let all := (createPartitions range events).flatMap Partition.events
    all.Pairwise (fun a b => a.block < b.block ∨ (a.block = b.block ∧ a.event.txHash ≤ b.event.txHash)) ∧
    (∃ sorted, sorted.Perm events ∧ all.Sublist sorted) ∧
    (events.Nodup → all.Perm events) := by
  intro all
  have hall : all = (chunks 32 (sortD events)).flatMap dedupAdj := createPartitions_events range events
  have hsub : all.Sublist (sortD events) := by
    rw [hall]
    have := flatMap_dedup_sublist (chunks 32 (sortD events))
    rwa [chunks_flatten 32 (by omega)] at this
  refine ⟨?_, ⟨_, sortD_perm events, hsub⟩, ?_⟩
  · have := (sortD_sorted events).sublist hsub
    refine this.imp ?_
    intro a b h
    simpa [leD] using h
  · intro hn
    have h1 : (sortD events).Nodup := ((sortD_perm events).nodup_iff).2 hn
    have h2 : (chunks 32 (sortD events)).flatten = sortD events := chunks_flatten 32 (by omega) _
    rw [hall, flatMap_dedup_nodup _ (by rw [h2]; exact h1), h2]
    exact sortD_perm events

/-- Non-vacuity: forty distinct events give two partitions of 32 and 8. -/
example :
    let evs := (List.range 40).map (fun i => ({ event := { exEvent with txHash := i }, block := 200 - i } : Discovered))
    (createPartitions { start := 1, length := 300 } evs).map (fun p => (p.number, p.isLast, p.events.length)) =
      [(0, false, 32), (1, true, 8)] := by
  decide +kernel

end Verif.EthBridge
