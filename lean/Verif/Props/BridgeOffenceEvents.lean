import Verif.Model.BridgeOffence
import Verif.Props.DiscoveryLiveness

/-!
# Properties C107 and C108: whom the bridge reports for votes on Ethereum events
-/

namespace Verif.BridgeOffence

open EthBridge
open Verif (Addr Hash)
open Verif.EventsClient
open Verif.Events (ValidEvent signature tryFrom corePrimaryFilter)
open Verif.Parsing (EventData)
open Verif.Discovery

variable {W : Type} (handler : W → EthEvent → W × Bool)

/-! ### The instrumented model is the model -/

theorem submitEventsR_res (s : State W) (a : Nat) (p : Partition) : (submitEventsR handler s a p).1 = submitEvents handler s a p := by
  unfold submitEventsR submitEvents
  by_cases h1 : s.instanceValid = false
  · rw [if_pos h1, if_pos h1]
  rw [if_neg h1, if_neg h1]
  cases s.active with
  | none => rfl
  | some act =>
    dsimp only
    by_cases h2 : p.range ≠ act.range ∨ p.number ≠ act.partition
    · rw [if_pos h2, if_pos h2]
    rw [if_neg h2, if_neg h2]
    by_cases h3 : hasVoted s.votes a = true
    · rw [if_pos h3, if_pos h3]
    rw [if_neg h3, if_neg h3]
    cases tryInsert votesLimit (lookupVotes s.votes p) a with
    | none => rfl
    | some vs =>
      dsimp only
      by_cases h4 : vs.length < quorum s.authors
      · rw [if_pos h4, if_pos h4]
      · rw [if_neg h4, if_neg h4]; rfl

theorem stepEv_state (s : State W) (op : Step W) : (stepEv handler s op).1 = step handler s op := by
  cases op with
  | submitEvents a p =>
    unfold stepEv
    simp only [step]
    by_cases h : isAuthor s a = true
    · rw [if_pos h, if_pos h, ← submitEventsR_res, transactional]
      by_cases h2 : (submitEventsR handler s a p).1.2.isSome = true
      · rw [if_pos h2, if_pos h2]
      · rw [if_neg h2, if_neg h2]
    · rw [if_neg h, if_neg h]
  | _ => rfl

/-! ### Reports -/

/-- The reports of a vote: none unless it makes the pallet process the partition, and then those about the remaining entries. -/
theorem stepEv_cases (s : State W) (a : Nat) (p : Partition) :
    ((stepEv handler s (.submitEvents a p)).2 = [] ∧ Obs.approved p ∉ (step handler s (.submitEvents a p)).log.drop s.log.length) ∨
    (∃ act vs new, a ∈ s.authors ∧ s.active = some act ∧ p.range = act.range ∧ p.number = act.partition ∧ hasVoted s.votes a = false ∧
      tryInsert votesLimit (lookupVotes s.votes p) a = some vs ∧ quorum s.authors ≤ vs.length ∧
      (step handler s (.submitEvents a p)).log = s.log ++ new ∧ Obs.approved p ∈ new ∧
      (stepEv handler s (.submitEvents a p)).2 = evReports a (s.votes.filter fun e => e.1 ≠ p)) := by
  have hview := step_view handler s (.submitEvents a p)
  have hstate := stepEv_state handler s (.submitEvents a p)
  by_cases hau : isAuthor s a = true
  swap
  · left
    have h1 : stepEv handler s (.submitEvents a p) = (s, []) := by
      unfold stepEv
      dsimp only
      rw [if_neg hau]
    rw [← hstate, h1]
    simp
  have hmem : a ∈ s.authors := by simpa [isAuthor] using hau
  have hrep : stepEv handler s (.submitEvents a p) =
      (if (submitEventsR handler s a p).1.2.isSome then (s, []) else ((submitEventsR handler s a p).1.1, (submitEventsR handler s a p).2)) := by
    unfold stepEv
    dsimp only
    rw [if_pos hau]
  rw [← hstate, hrep]
  have hquiet : ∀ e : Err, (submitEventsR handler s a p) = ((s, some e), []) →
      ((if (submitEventsR handler s a p).1.2.isSome then (s, [])
        else ((submitEventsR handler s a p).1.1, (submitEventsR handler s a p).2)) : State W × List Report) = (s, []) := by
    intro e he; rw [he]; rfl
  by_cases h1 : s.instanceValid = false
  · left
    rw [hquiet .invalidInstance (by unfold submitEventsR; rw [if_pos h1])]
    simp
  cases hact : s.active with
  | none =>
    left
    rw [hquiet .nonActiveRange (by unfold submitEventsR; rw [if_neg h1, hact])]
    simp
  | some act =>
    by_cases h2 : p.range ≠ act.range ∨ p.number ≠ act.partition
    · left
      rw [hquiet .nonActiveRange (by unfold submitEventsR; rw [if_neg h1, hact]; dsimp only; rw [if_pos h2])]
      simp
    by_cases h3 : hasVoted s.votes a = true
    · left
      rw [hquiet .eventVoteExists (by unfold submitEventsR; rw [if_neg h1, hact]; dsimp only; rw [if_neg h2, if_pos h3])]
      simp
    cases hti : tryInsert votesLimit (lookupVotes s.votes p) a with
    | none =>
      left
      rw [hquiet .eventVotesFull (by unfold submitEventsR; rw [if_neg h1, hact]; dsimp only; rw [if_neg h2, if_neg h3, hti])]
      simp
    | some vs =>
      by_cases h4 : vs.length < quorum s.authors
      · left
        have : submitEventsR handler s a p = (({ s with log := s.log ++ [Obs.eventVote a p], votes := setVotes s.votes p vs }, none), []) := by
          unfold submitEventsR
          rw [if_neg h1, hact]
          dsimp only
          rw [if_neg h2, if_neg h3, hti]
          dsimp only
          rw [if_pos h4]
        rw [this]
        simp
      · right
        have : submitEventsR handler s a p =
            ((advancePartition (processPartitionR handler { s with log := s.log ++ [Obs.eventVote a p] ++ [Obs.approved p] } s.network act p a).1
              act p, none), (processPartitionR handler { s with log := s.log ++ [Obs.eventVote a p] ++ [Obs.approved p] } s.network act p a).2) := by
          unfold submitEventsR
          rw [if_neg h1, hact]
          dsimp only
          rw [if_neg h2, if_neg h3, hti]
          dsimp only
          rw [if_neg h4]
        have hspec := processPartition_spec handler { s with log := s.log ++ [.eventVote a p] ++ [.approved p] } s.network act p
        obtain ⟨-, -, -, -, -, -, -, -, -, new, hl, -⟩ := hspec
        have hvotes : (p.events.foldl (processDiscovered handler s.network act)
            { s with log := s.log ++ [Obs.eventVote a p] ++ [Obs.approved p], votes := s.votes.filter (fun e => e.1 ≠ p) }).votes =
            s.votes.filter (fun e => e.1 ≠ p) := by
          obtain ⟨f, -, -⟩ := processFold_spec handler s.network act p.events
            { s with log := s.log ++ [Obs.eventVote a p] ++ [Obs.approved p], votes := s.votes.filter (fun e => e.1 ≠ p) }
          exact f.2.1
        refine ⟨act, vs, [.eventVote a p, .approved p] ++ new, hmem, rfl, by tauto, by tauto, by simpa using h3, rfl, by omega, ?_, by simp, ?_⟩
        · rw [this]
          have : (advancePartition (processPartitionR handler { s with log := s.log ++ [Obs.eventVote a p] ++ [Obs.approved p] } s.network
              act p a).1 act p).log = s.log ++ ([.eventVote a p, .approved p] ++ new) := by
            have hl' : (processPartitionR handler { s with log := s.log ++ [Obs.eventVote a p] ++ [Obs.approved p] } s.network act p a).1.log =
              s.log ++ [.eventVote a p] ++ [.approved p] ++ new := hl
            unfold advancePartition
            by_cases hlast : p.isLast = true
            · rw [if_pos hlast]; dsimp only; rw [hl']; simp
            · rw [if_neg hlast]; dsimp only; rw [hl']; simp
          exact this
        · rw [this]
          exact congrArg (evReports a) hvotes

/-- **C107, events.** Whenever, in a history from genesis, a vote of author `a` makes the pallet process partition `p`, that call reports
exactly the accounts whose recorded vote for this position of the range was another one: for each other partition with recorded votes one
report, in `a`'s name, about its voters; nobody else is reported. Those accounts each cast a vote, as authors, for a partition of the same
range and number but different content, and none of them is recorded as voting for `p`, or is `a`. -/
theorem C107_contrary_event_votes_are_reported (w : W) (authors : List Nat) (size : Nat) (steps : List (Step W)) (a : Nat) (p : Partition)
    (hap : Approves handler (initial w authors size) steps (.submitEvents a p) p) :
    let s := run handler (initial w authors size) steps
    let reports := (stepEv handler s (.submitEvents a p)).2
    (∀ q vs, (q, vs) ∈ s.votes → q ≠ p → ∀ x ∈ vs, (⟨.invalidRange, a, vs⟩ : Report) ∈ reports) ∧
    ∀ r ∈ reports, r.kind = .invalidRange ∧ r.reporter = a ∧ r.who ≠ [] ∧ r.who.Nodup ∧
      ∃ q, q ≠ p ∧ q.range = p.range ∧ q.number = p.number ∧ (q, r.who) ∈ s.votes ∧
        ∀ x ∈ r.who, CastVote handler (initial w authors size) steps x q ∧ x ≠ a ∧ x ∉ lookupVotes s.votes p := by
  dsimp only
  obtain ⟨im, ic⟩ := run_votes_inv handler (initial w authors size) rfl steps
  have hpos := votes_position handler w authors size steps
  have hone := C13_one_live_vote handler (initial w authors size) rfl steps
  obtain ⟨new, hl, hp⟩ := hap
  rw [run_snoc] at hl
  generalize run handler (initial w authors size) steps = s at *
  rcases stepEv_cases handler s a p with ⟨-, h⟩ | ⟨act, vs0, new', h1, h2, h3, h4, h5, h6, h7, h8, h9, h10⟩
  · rw [hl, List.drop_append_of_le_length (Nat.le_refl _), List.drop_length] at h
    exact absurd (by simpa using hp) h
  rw [h10]
  unfold evReports
  refine ⟨?_, ?_⟩
  · intro q vs hm hne x hx
    refine List.mem_map.2 ⟨(q, vs), List.mem_filter.2 ⟨List.mem_filter.2 ⟨hm, by simpa using hne⟩, ?_⟩, rfl⟩
    have : vs ≠ [] := fun e => by rw [e] at hx; simp at hx
    simpa using this
  · intro r hr
    obtain ⟨⟨q, vs⟩, he, rfl⟩ := List.mem_map.1 hr
    obtain ⟨he, hne⟩ := List.mem_filter.1 he
    obtain ⟨he, hqp⟩ := List.mem_filter.1 he
    have hqp' : q ≠ p := by simpa using hqp
    obtain ⟨act', g1, g2, g3⟩ := hpos _ he
    rw [h2] at g1; cases g1
    refine ⟨rfl, rfl, by simpa using hne, im.set_nodup he, q, hqp', by rw [h3]; exact g2, by rw [h4]; exact g3, he, ?_⟩
    intro x hx
    refine ⟨ic q vs x he hx, ?_, ?_⟩
    · rintro rfl
      exact hasVoted_false _ _ h5 _ he hx
    · intro hx'
      exact hqp' (hone x q p vs (lookupVotes s.votes p) he (lookupVotes_mem _ _ _ hx') hx hx').1

/-- **C107, nothing else is reported (events).** A call that files a report is a vote that makes the pallet process the partition. -/
theorem C107_only_processing_reports (s : State W) (op : Step W) (h : (stepEv handler s op).2 ≠ []) :
    ∃ a p new, op = .submitEvents a p ∧ (step handler s op).log = s.log ++ new ∧ Obs.approved p ∈ new := by
  cases op with
  | submitEvents a p =>
    rcases stepEv_cases handler s a p with ⟨h1, -⟩ | ⟨_, _, new, _, _, _, _, _, _, _, h8, h9, -⟩
    · exact absurd h1 h
    · exact ⟨a, p, new, rfl, h8, h9⟩
  | _ => exact absurd rfl h

/-! ### C108 -/

variable (code : EventData → Nat) (contract : Addr)

/-- **C108, events, partial.** While a range is active whose additional transactions are in blocks up to its end: if the honest accounts
call the bridge only through rounds of their discovery task, on nodes that agree on the finalised Ethereum chain, and the dishonest
accounts that voted for a processed partition are always fewer than the quorum, then no honest account is reported. (What is missing:
additional transactions after the end of the range, see `C108_additional_transactions_report_honest_authors`.) -/
theorem C108_honest_voters_not_reported_partial (F : List Log) (R : Hash → Option Nat) (honest : Nat → Prop) (w : W) (authors : List Nat)
    (size : Nat) (steps : List (Step W)) (op : Step W)
    (hh : HonestHistory handler code contract F R honest (initial w authors size) (steps ++ [op]))
    (hb : FewDishonest handler honest (initial w authors size) (steps ++ [op]))
    (act : Active) (hact : (run handler (initial w authors size) steps).active = some act) (hlen : 0 < act.range.length)
    (hmax : act.range.start < 4294967295) (hadd : AdditionalInTime R act) :
    ∀ r ∈ (stepEv handler (run handler (initial w authors size) steps) op).2, ∀ x ∈ r.who, ¬ honest x := by
  intro r hr x hx hhon
  obtain ⟨a, p, new, rfl, hl, hp⟩ := C107_only_processing_reports handler _ op (List.ne_nil_of_mem hr)
  have hap : Approves handler (initial w authors size) steps (.submitEvents a p) p := ⟨new, by rw [run_snoc]; exact hl, hp⟩
  obtain ⟨-, hrep⟩ := C107_contrary_event_votes_are_reported handler w authors size steps a p hap
  obtain ⟨-, -, -, -, q, hqp, hq1, hq2, hq3, hcast⟩ := hrep r hr
  obtain ⟨act', g1, g2, g3⟩ := votes_position handler w authors size steps _ hq3
  rw [hact] at g1; cases g1
  have hpb := partition_bound handler w authors size steps act hact
  have hn : act.partition < 65536 := by unfold maxU16 at hpb; omega
  -- the reported account's vote
  obtain ⟨pre, post, e1, -, -⟩ := (hcast x hx).1
  obtain ⟨nd, k1, k2, k3⟩ := honest_vote (m := .submitEvents x q :: post) (HonestHistory.prefix hh) e1 hhon (by rw [← e1]; exact hact) g2 g3 hlen hmax
  obtain ⟨gs, -, hgs, -⟩ := vote_shape k1 hn k2 k3
  have hthe := vote_is_the k1 hn hadd k2 hgs k3
  -- an honest vote for the processed partition
  obtain ⟨bad, hlt, hbad⟩ := hb steps (.submitEvents a p) [] p rfl hap
  obtain ⟨voters, hnd, hq, hv⟩ := C13_partition_needs_quorum handler (initial w authors size) rfl steps (.submitEvents a p) p new
    (by rw [run_snoc]; exact hl) (mem_approvedOf.2 hp)
  have hy : ∃ y ∈ voters, honest y := by
    refine Classical.byContradiction (fun hno => ?_)
    have hsub : voters ⊆ bad := fun y hy => hbad y (hv y hy) (fun h => hno ⟨y, hy, h⟩)
    have := (hnd.subperm hsub).length_le
    omega
  obtain ⟨y, hyv, hy⟩ := hy
  obtain ⟨pre', post', f1, -, -⟩ := hv y hyv
  have hm : ∃ m, steps = pre' ++ m := by
    rcases List.eq_nil_or_concat post' with rfl | ⟨post2, o, rfl⟩
    · obtain ⟨e1, -⟩ := List.append_inj' f1 rfl
      exact ⟨[], by rw [e1, List.append_nil]⟩
    · simp only [List.concat_eq_append, ← List.cons_append, ← List.append_assoc] at f1
      obtain ⟨e1, -⟩ := List.append_inj' f1 rfl
      exact ⟨_, e1⟩
  obtain ⟨m, hm⟩ := hm
  obtain ⟨nd', l1, l2, l3⟩ := honest_vote (m := m) hh f1 hy (by rw [← hm]; exact hact) (by rw [← hq1]; exact g2) (by rw [← hq2]; exact g3) hlen hmax
  have hthe' := vote_is_the l1 hn hadd l2 hgs l3
  exact hqp (hthe.trans hthe'.symm)

/-! ### Instances and the counterexample -/

/-- In the example history author 3 votes for a forged partition and the honest authors 1 and 2 for the true one: author 3 is reported. -/
example : (stepEv exHandler (run exHandler (initial 0 [1, 2, 3, 4] 10) (exHistory.take 4)) (.submitEvents 2 exTrue)).2 =
    [⟨.invalidRange, 2, [3]⟩] := by decide +kernel

example : Approves exHandler (initial 0 [1, 2, 3, 4] 10) (exHistory.take 4) (.submitEvents 2 exTrue) exTrue :=
  ⟨(run exHandler (initial 0 [1, 2, 3, 4] 10) exHistory).log.drop (run exHandler (initial 0 [1, 2, 3, 4] 10) (exHistory.take 4)).log.length,
    by decide +kernel, by decide +kernel⟩

/-- The hypotheses of `C108_honest_voters_not_reported_partial` hold there, and its conclusion is not vacuous. -/
example : ∀ r ∈ (stepEv exHandler (run exHandler (initial 0 [1, 2, 3, 4] 10) (exHistory.take 4)) (.submitEvents 2 exTrue)).2,
    ∀ x ∈ r.who, ¬ (x ≠ 3) :=
  C108_honest_voters_not_reported_partial exHandler exCode exBridge exChain exReceipt (· ≠ 3) 0 [1, 2, 3, 4] 10 (exHistory.take 4)
    (.submitEvents 2 exTrue) exHistory_honest exHistory_few ⟨⟨100, 10⟩, 0, corePrimaryFilter, []⟩ (by decide +kernel) (by decide) (by decide)
    (by simp [AdditionalInTime])

/-- The votes of authors 1 and 2 in the history below: nodes that have seen blocks 150 and 152. -/
def exLateHistory : List (Step Nat) :=
  [.admin [] (.queueAdditional 1), .submitBlock 1 150, .submitBlock 2 152, .submitEvents 1 (exVote []), .submitEvents 2 (exVote [(1, 151)])]

/-- **C108 is false in general** (finding D3). An additional transaction is queued whose block 151 comes after the range 100 to 109 that
becomes active. Four honest authors, on the same Ethereum chain, vote; author 1 looks just before block 151 appears, authors 2 and 3 just
after. Their votes differ, those of 2 and 3 are a quorum, and author 1 is reported for invalid data, though no call ever came from
anything but an honest node. -/
theorem C108_additional_transactions_report_honest_authors :
    HonestHistory exHandler exCode exBridge exLateChain exLateReceipt (fun _ => True) (initial 0 [1, 2, 3, 4] 10)
      (exLateHistory ++ [.submitEvents 3 (exVote [(1, 151)])]) ∧
    (stepEv exHandler (run exHandler (initial 0 [1, 2, 3, 4] 10) exLateHistory) (.submitEvents 3 (exVote [(1, 151)]))).2 =
      [⟨.invalidRange, 3, [1]⟩] := by
  refine ⟨?_, by decide +kernel⟩
  have h0 : HonestHistory exHandler exCode exBridge exLateChain exLateReceipt (fun _ => True) (initial 0 [1, 2, 3, 4] 10)
      ([] : List (Step Nat)) := by
    intro pre op post x he
    simp at he
  have hb : ∀ (a : List (Step Nat)) (x n : Nat) (op : Step Nat),
      HonestHistory exHandler exCode exBridge exLateChain exLateReceipt (fun _ => True) (initial 0 [1, 2, 3, 4] 10) a →
      caller op = some x →
      workerRound exCode exBridge (exLateNode x n) ⟨run exHandler (initial 0 [1, 2, 3, 4] 10) a, run exHandler (initial 0 [1, 2, 3, 4] 10) a,
        run exHandler (initial 0 [1, 2, 3, 4] 10) a, run exHandler (initial 0 [1, 2, 3, 4] 10) a⟩ = some op →
      HonestHistory exHandler exCode exBridge exLateChain exLateReceipt (fun _ => True) (initial 0 [1, 2, 3, 4] 10) (a ++ [op]) := by
    intro a x n op ha hc h
    refine ha.snoc (fun y hy _ => ?_)
    rw [hc] at hy; cases hy
    exact ByWorker.now (exLateNode x n) (exLateNode_faithful x n) h
  have h1 := HonestHistory.snoc (op := .admin [] (.queueAdditional 1)) h0 (fun x hx => by cases hx)
  have h4 := hb _ 1 150 (.submitBlock 1 150) h1 rfl (by decide +kernel)
  have h5 := hb _ 2 152 (.submitBlock 2 152) h4 rfl (by decide +kernel)
  have h6 := hb _ 1 150 (.submitEvents 1 (exVote [])) h5 rfl (by decide +kernel)
  have h7 := hb _ 2 152 (.submitEvents 2 (exVote [(1, 151)])) h6 rfl (by decide +kernel)
  exact hb _ 3 152 (.submitEvents 3 (exVote [(1, 151)])) h7 rfl (by decide +kernel)

end Verif.BridgeOffence
