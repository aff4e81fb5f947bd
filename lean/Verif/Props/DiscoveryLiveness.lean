import Verif.Props.DiscoveryComplete
import Verif.Lemmas.DiscoveryVotes

/-!
# Property C98: event discovery makes progress

An additional transaction (one the administrator queued for another look) can be in a block after the active range. Nodes then disagree
about what to vote for, so the full claim is false; the theorem asks that the additional transactions of the range are in blocks up to
its end, and that the bridge's logs can be read.
-/

namespace Verif.Discovery

open Verif (Addr Hash)
open Verif.EthBridge
open Verif.EventsClient
open Verif.Events (ValidEvent signature tryFrom corePrimaryFilter)
open Verif.Parsing (EventData)

variable {W : Type} {handler : W → EthEvent → W × Bool} {code : EventData → Nat} {contract : Addr}

/-! ### Specification -/

/-- All logs of the bridge contract up to block `hi` can be read. -/
def Readable (contract : Addr) (F : List Log) (hi : Nat) : Prop :=
  ∀ l ∈ F, BridgeLog [contract] l → ∀ b ≤ hi, l.block = some b → ∃ f, parseLog l = .ok f

/-- The additional transactions of the range are in blocks up to its end. -/
def AdditionalInTime (R : Hash → Option Nat) (act : Active) : Prop :=
  ∀ h ∈ act.additional, ∃ b, R (numHash h) = some b ∧ b ≤ act.range.endBlock

/-! ### The vote every faithful node casts -/

/-- The partition all faithful nodes vote for. -/
def thePartition (code : EventData → Nat) (contract : Addr) (F : List Log) (R : Hash → Option Nat) (act : Active) (gs : List Found) :
    Partition :=
  { range := act.range, number := act.partition
    isLast := decide ((rangeList code contract F R act gs).length ≤ 32 * (act.partition + 1))
    events := dedupAdj (((rangeList code contract F R act gs).drop (32 * act.partition)).take 32) }

theorem identify_total {F : List Log} {lo hi e : Nat} (hr : Readable contract F e) (hle : hi ≤ e) :
    ∃ gs, identifyEvents F lo hi [contract] coreWanted = .ok gs := by
  obtain ⟨fs, h⟩ := collect_ok (acc := []) (ls := candidates F lo hi [contract] coreWanted) (by
    intro l hl _
    obtain ⟨h1, ⟨b, h2, h3, h4⟩, h5⟩ := candidates_mem.1 hl
    exact hr l h1 (h5.resolve_right fun h => coreWanted_not_transfers h.1) b (by omega) h2)
  rw [identify_eq, h]
  exact ⟨_, rfl⟩

theorem receipt_in_time {F : List Log} {R : Hash → Option Nat} {nd : Node} (hf : Faithful F R nd) {act : Active}
    (ha : AdditionalInTime R act) (hd : act.range.endBlock + 20 ≤ nd.latest) :
    ∀ t ∈ act.additional.map numHash, ∃ b, nd.receipt t = some b ∧ b ≤ act.range.endBlock := by
  intro t ht
  obtain ⟨h, hh, rfl⟩ := List.mem_map.1 ht
  obtain ⟨b, h1, h2⟩ := ha h hh
  exact ⟨b, (hf.receipts _ b (by omega)).2 h1, h2⟩

theorem additional_in_time {F : List Log} {R : Hash → Option Nat} {nd : Node} (hf : Faithful F R nd) {act : Active}
    (ha : AdditionalInTime R act) (hd : act.range.endBlock + 20 ≤ nd.latest) {fs : List Found}
    (h : identifyAdditional nd.chain nd.receipt [contract] coreWanted (act.additional.map numHash) = .ok fs) :
    ∀ f ∈ fs, f.block ≤ act.range.endBlock := by
  intro f hm
  obtain ⟨t, ht, b, gs, h1, h2, h3⟩ := additional_blocks h f hm
  obtain ⟨b', h4, h5⟩ := receipt_in_time hf ha hd t ht
  rw [h1] at h4; cases h4
  have := identify_blocks h2 f h3
  omega

theorem additional_total {F : List Log} {R : Hash → Option Nat} {nd : Node} (hf : Faithful F R nd) {e : Nat} (hd : e + 20 ≤ nd.latest)
    (hr : Readable contract F e) (ts : List Hash) (ht : ∀ t ∈ ts, ∃ b, nd.receipt t = some b ∧ b ≤ e) :
    ∃ fs, identifyAdditional nd.chain nd.receipt [contract] coreWanted ts = .ok fs := by
  induction ts with
  | nil => exact ⟨[], rfl⟩
  | cons t ts ih =>
    obtain ⟨fs, h1⟩ := ih (fun t' h => ht t' (by simp [h]))
    obtain ⟨b, h2, h3⟩ := ht t (by simp)
    obtain ⟨gs, h4⟩ := identify_total (lo := b) hr h3
    rw [identifyAdditional, h2]
    dsimp only
    rw [identify_same hf b b (by omega), h4, h1]
    exact ⟨_, rfl⟩

theorem find_exists {range : EthBridge.Range} {events : List Discovered} {n : Nat} (hn : n < 65536)
    (h : n = 0 ∨ 32 * n < events.length) : ∃ p, (createPartitions range events).find? (fun p => p.number == n) = some p := by
  have hl : (sortD events).length = events.length := (sortD_perm events).length_eq
  unfold createPartitions
  dsimp only
  by_cases he : EthBridge.number range (chunks 32 (sortD events)).length 0 (chunks 32 (sortD events)) = []
  · rw [if_pos he]
    have h0 : n = 0 := by
      rcases h with h | h
      · exact h
      · have h1 := (chunks_length_lt (sortD events) n).2 (by omega)
        have h2 := EthBridge.number_length range (chunks 32 (sortD events)).length (chunks 32 (sortD events)) 0
        rw [he] at h2
        simp only [List.length_nil] at h2
        omega
    subst h0
    exact ⟨_, List.find?_cons_of_pos (by simp)⟩
  · rw [if_neg he]
    have hlen := EthBridge.number_length range (chunks 32 (sortD events)).length (chunks 32 (sortD events)) 0
    have hlt : n < (EthBridge.number range (chunks 32 (sortD events)).length 0 (chunks 32 (sortD events))).length := by
      rcases h with rfl | h
      · exact List.length_pos_iff.2 he
      · rw [hlen]; exact (chunks_length_lt (sortD events) n).2 (by omega)
    have hget := EthBridge.number_get range (chunks 32 (sortD events)).length (chunks 32 (sortD events)) 0 n
    rw [List.getElem?_eq_getElem hlt] at hget
    obtain ⟨c, -, hc⟩ := Option.map_eq_some_iff.1 hget.symm
    have hmem := List.getElem_mem hlt
    cases hf : (EthBridge.number range (chunks 32 (sortD events)).length 0 (chunks 32 (sortD events))).find? (fun p => p.number == n) with
    | some p => exact ⟨p, rfl⟩
    | none =>
      have := List.find?_eq_none.1 hf _ hmem
      rw [← hc] at this
      exact absurd (by simp; omega) this

/-- A faithful node's vote is the partition. -/
theorem vote_is_the {F : List Log} {R : Hash → Option Nat} {nd : Node} (hf : Faithful F R nd) {act : Active} (hn : act.partition < 65536)
    (ha : AdditionalInTime R act) (hd : act.range.endBlock + 20 ≤ nd.latest) {gs : List Found}
    (hgs : identifyEvents F act.range.start act.range.endBlock [contract] coreWanted = .ok gs) {p : Partition}
    (h : partitionToVote code nd.order nd.chain nd.receipt [contract] coreWanted (act.additional.map numHash) act.range act.partition =
      some p) : p = thePartition code contract F R act gs := by
  obtain ⟨gs', tail, s1, -, s2, s3, s4, s5, s6⟩ := vote_shape hf hn hd h
  rw [hgs] at s1; cases s1
  have htail : tail = [] := by
    have h' := h
    unfold partitionToVote at h'
    split at h'
    · rename_i fs gs2 h1 h2
      exact s2 fs h1 (additional_in_time hf ha hd h1)
    · cases h'
  subst htail
  rw [List.append_nil] at s5 s6
  cases p with
  | mk r n l e =>
    dsimp only at s3 s4 s5 s6
    subst s3 s4
    unfold thePartition
    have : l = decide ((rangeList code contract F R act gs).length ≤ 32 * (act.partition + 1)) := by
      unfold rangeList
      cases l with
      | true => exact (decide_eq_true (s6.1 rfl)).symm
      | false => exact (decide_eq_false (fun hle => by have := s6.2 hle; cases this)).symm
    rw [s5, ← this]
    rfl

/-- A faithful node can vote. -/
theorem node_votes {F : List Log} {R : Hash → Option Nat} {nd : Node} (hf : Faithful F R nd) {act : Active} (hn : act.partition < 65536)
    (ha : AdditionalInTime R act) (hr : Readable contract F act.range.endBlock) (hd : act.range.endBlock + 20 ≤ nd.latest) {gs : List Found}
    (hgs : identifyEvents F act.range.start act.range.endBlock [contract] coreWanted = .ok gs)
    (hlen : act.partition = 0 ∨ 32 * act.partition < (rangeList code contract F R act gs).length) :
    partitionToVote code nd.order nd.chain nd.receipt [contract] coreWanted (act.additional.map numHash) act.range act.partition =
      some (thePartition code contract F R act gs) := by
  obtain ⟨fs, hfs⟩ := additional_total hf hd hr _ (receipt_in_time hf ha hd)
  have hcan := additional_canon hf hd hfs
  have hall : fs.filter (fun f => decide (f.block ≤ act.range.endBlock)) = fs := by
    rw [List.filter_eq_self]
    intro f hm
    exact decide_eq_true (additional_in_time hf ha hd hfs f hm)
  rw [hall] at hcan
  have hgs' := identify_same hf act.range.start act.range.endBlock hd [contract] coreWanted
  rw [hgs] at hgs'
  have hex : ∃ p, partitionToVote code nd.order nd.chain nd.receipt [contract] coreWanted (act.additional.map numHash) act.range
      act.partition = some p := by
    unfold partitionToVote
    rw [hfs, hgs']
    dsimp only
    refine find_exists hn (hlen.imp_right fun h => ?_)
    unfold rangeList canonEvents at h
    rw [(sortD_perm _).length_eq, ← hcan] at h
    rw [List.length_map] at h ⊢
    rw [(hf.order _).length_eq]
    exact h
  obtain ⟨p, hp⟩ := hex
  rw [hp, vote_is_the hf hn ha hd hgs hp]

/-! ### Honest votes so far -/

/-- The vote of an honest author for the active position. -/
theorem honest_vote {F : List Log} {R : Hash → Option Nat} {honest : Nat → Prop} {w : W} {authors : List Nat} {size : Nat}
    {steps pre post m : List (Step W)} {x : Nat} {q : Partition} {act : Active}
    (hh : HonestHistory handler code contract F R honest (initial w authors size) steps) (he : steps = pre ++ .submitEvents x q :: post)
    (hx : honest x) (hact : (run handler (initial w authors size) (pre ++ m)).active = some act) (q2 : q.range = act.range)
    (q3 : q.number = act.partition) (hlen : 0 < act.range.length) (hmax : act.range.start < maxU32) :
    ∃ nd, Faithful F R nd ∧ act.range.endBlock + 20 ≤ nd.latest ∧
      partitionToVote code nd.order nd.chain nd.receipt [contract] coreWanted (act.additional.map numHash) act.range act.partition =
        some q := by
  obtain ⟨p1, p2, p3, p4, p5, nd, r1, -, r2, h5⟩ := hh pre (.submitEvents x q) post x he rfl hx
  obtain ⟨act1, r3, -, r4, -, r5⟩ := worker_vote h5
  dsimp only at r3 r5
  obtain ⟨hrange, hnum, -⟩ := C74_vote_is_what_was_found code nd.order r2.order _ _ _ _ _ _ _ q r5
  have er : act1.range = act.range := by rw [← q2, hrange]
  have en : act1.partition = act.partition := by rw [← q3, hnum]
  have hact2 : ∃ act2, (run handler (initial w authors size) (p1 ++ p2)).active = some act2 := by
    rw [run_append]
    obtain ⟨b, h1, -⟩ := run_later handler _ p2 act1 r3 (partition_bound handler w authors size p1 act1 r3)
    exact ⟨b, h1⟩
  obtain ⟨act2, hact2⟩ := hact2
  have hw : wantedSignatures (run handler (initial w authors size) (p1 ++ p2)) = coreWanted := by
    unfold wantedSignatures
    rw [hact2]
    dsimp only
    rw [C78_filter_is_core handler w authors size _ act2 hact2]
    rfl
  have hadd : additionalTransactions (run handler (initial w authors size) (p1 ++ p2 ++ p3 ++ p4)) = act.additional.map numHash := by
    have hact4 : ∃ act4, (run handler (initial w authors size) (p1 ++ p2 ++ p3 ++ p4)).active = some act4 ∧ Later act1 act4 := by
      rw [List.append_assoc, List.append_assoc, run_append]
      obtain ⟨b, h1, h2, -⟩ := run_later handler _ (p2 ++ (p3 ++ p4)) act1 r3 (partition_bound handler w authors size p1 act1 r3)
      exact ⟨b, h1, h2⟩
    obtain ⟨act4, h4, hlat⟩ := hact4
    have hl2 := same_range handler w authors size (p1 ++ p2 ++ p3 ++ p4) (p5 ++ m) act4 act h4 (by
      rw [← List.append_assoc, ← r1]; exact hact)
    obtain ⟨e1, e2⟩ := hl2
    obtain ⟨e3, e4⟩ := e2 hmax
    obtain ⟨g1, g2⟩ := hlat
    obtain ⟨g3, -⟩ := g2 (by omega)
    have e5 := (e4 (by omega) (by rw [er] at g3; omega)).2.2.1
    unfold additionalTransactions
    rw [h4]
    dsimp only
    rw [e5]
  rw [hw, hadd, er, en] at r5
  rw [er] at r4
  exact ⟨nd, r2, r4, r5⟩

/-- How a later partition of a range came to be active. -/
theorem partition_reached (w : W) (authors : List Nat) (size : Nat) (steps : List (Step W)) (act : Active)
    (hact : (run handler (initial w authors size) steps).active = some act) (hpos : 0 < act.partition) :
    ∃ pre op post p pact, steps = pre ++ op :: post ∧ Approves handler (initial w authors size) pre op p ∧
      (run handler (initial w authors size) pre).active = some pact ∧ pact.range = act.range ∧ pact.additional = act.additional ∧
      p.range = pact.range ∧ p.number = pact.partition ∧ p.isLast = false ∧ act.partition ≤ pact.partition + 1 := by
  induction steps using List.reverseRecOn generalizing act with
  | nil => simp [run, initial] at hact
  | append_singleton steps op ih =>
    have hold : (run handler (initial w authors size) steps).active = some act → _ := fun h => ih act h hpos
    have hv := step_view handler (run handler (initial w authors size) steps) op
    have hext : (∃ pre op' post p pact, steps = pre ++ op' :: post ∧ Approves handler (initial w authors size) pre op' p ∧
        (run handler (initial w authors size) pre).active = some pact ∧ pact.range = act.range ∧ pact.additional = act.additional ∧
        p.range = pact.range ∧ p.number = pact.partition ∧ p.isLast = false ∧ act.partition ≤ pact.partition + 1) →
        ∃ pre op' post p pact, steps ++ [op] = pre ++ op' :: post ∧ Approves handler (initial w authors size) pre op' p ∧
        (run handler (initial w authors size) pre).active = some pact ∧ pact.range = act.range ∧ pact.additional = act.additional ∧
        p.range = pact.range ∧ p.number = pact.partition ∧ p.isLast = false ∧ act.partition ≤ pact.partition + 1 := by
      rintro ⟨pre, op', post, p, pact, h, r⟩
      exact ⟨pre, op', post ++ [op], p, pact, by rw [h]; simp, r⟩
    rw [run_snoc] at hact
    generalize hs' : step handler (run handler (initial w authors size) steps) op = s' at hv hact
    cases hv with
    | vote => exact hext (hold hact)
    | approve a q act' vs s' hauth hok hact0 hr' hn hv hi hq hvotes hauths hsub hact' hqueue hgrow new hlog hnew =>
      rw [hact'] at hact
      cases hlast : q.isLast with
      | true => rw [hlast, if_pos rfl] at hact; cases hact; simp at hpos
      | false =>
        rw [hlast] at hact
        simp only [Bool.false_eq_true, if_false] at hact
        cases hact
        exact ⟨steps, .submitEvents a q, [], q, act', rfl, ⟨_, by rw [run_snoc, hs']; exact hlog, by simp⟩, hact0, rfl, rfl, hr', hn,
          hlast, Nat.min_le_left _ _⟩
    | block => exact hext (hold hact)
    | select => cases hact; simp at hpos
    | quiet op s' _ h => rw [h] at hact; exact hext (hold hact)

/-- The active partition exists. -/
theorem partition_exists {F : List Log} {R : Hash → Option Nat} {honest : Nat → Prop} {w : W} {authors : List Nat} {size : Nat}
    {steps : List (Step W)} {act : Active} (hh : HonestHistory handler code contract F R honest (initial w authors size) steps)
    (hb : FewDishonest handler honest (initial w authors size) steps)
    (hact : (run handler (initial w authors size) steps).active = some act) (hlen : 0 < act.range.length)
    (hmax : act.range.start < maxU32) (ha : AdditionalInTime R act) {gs : List Found}
    (hgs : identifyEvents F act.range.start act.range.endBlock [contract] coreWanted = .ok gs) :
    act.partition = 0 ∨ 32 * act.partition < (rangeList code contract F R act gs).length := by
  rcases Nat.eq_zero_or_pos act.partition with h0 | hpos
  · exact .inl h0
  right
  obtain ⟨pre, op, post, p, pact, he, hap, h1, h2, h3, h4, h5, h6, h7⟩ := partition_reached w authors size steps act hact hpos
  -- an honest author voted for it
  obtain ⟨bad, hlt, hbad⟩ := hb pre op post p he hap
  obtain ⟨new, hl, hp⟩ := hap
  obtain ⟨voters, hn, hq, hv⟩ := C13_partition_needs_quorum handler (initial w authors size) rfl pre op p new hl (mem_approvedOf.2 hp)
  have hx : ∃ x ∈ voters, honest x := by
    refine Classical.byContradiction (fun hno => ?_)
    have hsub : voters ⊆ bad := fun x hx => hbad x (hv x hx) (fun hx' => hno ⟨x, hx, hx'⟩)
    have := (hn.subperm hsub).length_le
    omega
  obtain ⟨x, hxv, hx⟩ := hx
  obtain ⟨pre', post', g1, -, -⟩ := hv x hxv
  have hm : ∃ m, pre = pre' ++ m := by
    rcases List.eq_nil_or_concat post' with rfl | ⟨post2, o, rfl⟩
    · obtain ⟨e1, -⟩ := List.append_inj' g1 rfl
      exact ⟨[], by rw [e1, List.append_nil]⟩
    · simp only [List.concat_eq_append, ← List.cons_append, ← List.append_assoc] at g1
      obtain ⟨e1, -⟩ := List.append_inj' g1 rfl
      exact ⟨_, e1⟩
  obtain ⟨m, rfl⟩ := hm
  have he' : steps = pre' ++ .submitEvents x p :: (post' ++ post) := by
    rw [he, ← List.singleton_append, ← List.append_assoc, g1]; simp
  obtain ⟨nd, k1, k2, k3⟩ := honest_vote hh he' hx h1 h4 h5 (by rw [h2]; exact hlen) (by rw [h2]; exact hmax)
  have hbound := partition_bound handler w authors size _ pact h1
  have hthe := vote_is_the k1 (by unfold maxU16 at hbound; omega) (fun h hh => by rw [h2]; exact ha h (by rw [← h3]; exact hh)) k2
    (gs := gs) (by rw [h2]; exact hgs) k3
  have hl2 : decide ((rangeList code contract F R pact gs).length ≤ 32 * (pact.partition + 1)) = false := by
    rw [hthe] at h6; exact h6
  have hl3 := of_decide_eq_false hl2
  have hrl : rangeList code contract F R pact gs = rangeList code contract F R act gs := by
    unfold rangeList; rw [h2, h3]
  rw [hrl] at hl3
  omega

variable (handler code contract)

/-! ### C98 -/

/-- **C98, no wasted votes.** What a round submits comes from the node's own account, which, in the state in which the round asked,
was in no list of voters: neither of a partition nor of a start block. -/
theorem C98_no_second_vote (nd : Node) (r : Reads W) (op : Step W) (h : workerRound code contract nd r = some op) :
    caller op = some nd.me ∧ (∀ p vs, (p, vs) ∈ r.atVoted.votes → nd.me ∉ vs) ∧ ∀ b vs, (b, vs) ∈ r.atVoted.submitted → nd.me ∉ vs := by
  have key : hasCastedVote r.atVoted nd.me = false →
      (∀ p vs, (p, vs) ∈ r.atVoted.votes → nd.me ∉ vs) ∧ ∀ b vs, (b, vs) ∈ r.atVoted.submitted → nd.me ∉ vs := by
    intro hc
    unfold hasCastedVote at hc
    rw [Bool.or_eq_false_iff] at hc
    obtain ⟨h1, h2⟩ := hc
    refine ⟨fun p vs hm hv => ?_, fun b vs hm hv => ?_⟩
    · rw [(hasVoted_iff _ _).2 ⟨(p, vs), hm, hv⟩] at h1; cases h1
    · rw [(hasVoted_iff _ _).2 ⟨(b, vs), hm, hv⟩] at h2; cases h2
  unfold workerRound at h
  cases ha : r.atRange.active with
  | none =>
    rw [ha] at h
    dsimp only at h
    unfold submitLatestBlock at h
    cases hc : hasCastedVote r.atVoted nd.me with
    | true => rw [hc] at h; simp at h
    | false =>
      rw [hc] at h
      simp only [Bool.false_eq_true, if_false, Option.some.injEq] at h
      subst h
      exact ⟨rfl, key hc⟩
  | some act =>
    rw [ha] at h
    dsimp only at h
    split_ifs at h with hf
    unfold processEvents at h
    cases hc : hasCastedVote r.atVoted nd.me with
    | true => rw [hc] at h; simp at h
    | false =>
      rw [hc] at h
      simp only [Bool.false_eq_true, if_false] at h
      split at h
      · cases h
      · simp only [Option.some.injEq] at h
        subst h
        exact ⟨rfl, key hc⟩

/-- **C98, start.** While no start block is selected: if a supermajority of the authors have submitted a block or run their discovery
task, and at least one runs it now, then each of the latter submits its block and, in whatever order these calls are executed, a range
is active afterwards. -/
theorem C98_start_block_is_selected (w : W) (authors : List Nat) (size : Nat) (steps : List (Step W))
    (hbound : AuthorsBounded handler (initial w authors size) steps)
    (hact : (run handler (initial w authors size) steps).active = none)
    (hsize : 0 < (run handler (initial w authors size) steps).rangeSize) (hs : List Nat) (hnd : hs.Nodup)
    (hauth : ∀ x ∈ hs, x ∈ (run handler (initial w authors size) steps).authors)
    (hq : supermajority (run handler (initial w authors size) steps).authors ≤ hs.length) (node : Nat → Node)
    (hme : ∀ x ∈ hs, (node x).me = x)
    (hone : ∃ x ∈ hs, hasVoted (run handler (initial w authors size) steps).submitted x = false) :
    let s := run handler (initial w authors size) steps
    let waiting := hs.filter fun x => !hasVoted s.submitted x
    (∀ x ∈ waiting, workerRound code contract (node x) ⟨s, s, s, s⟩ = some (.submitBlock x ((node x).latest % 2 ^ 32))) ∧
      (run handler s (waiting.map fun x => .submitBlock x ((node x).latest % 2 ^ 32))).active ≠ none := by
  dsimp only
  obtain ⟨im, ie, ip⟩ := run_blocks_inv handler (initial w authors size) rfl rfl steps
  have hvotes : (run handler (initial w authors size) steps).votes = [] := by
    rw [List.eq_nil_iff_forall_not_mem]
    intro e he
    obtain ⟨act, h, -⟩ := votes_position handler w authors size steps e he
    rw [hact] at h; cases h
  have hvalid := run_valid handler w authors size steps
  have hle := hbound steps [] (by simp)
  have hsmall : (flat (run handler (initial w authors size) steps).submitted).length < 256 := by
    suffices h : ∀ steps, AuthorsBounded handler (initial w authors size) steps →
        (flat (run handler (initial w authors size) steps).submitted).length < 256 from h steps hbound
    intro steps
    induction steps using List.reverseRecOn with
    | nil => intro _; simp [run, initial, flat]
    | append_singleton steps op ih =>
      intro hb
      have ihs := ih hb.prefix
      have hle := hb steps [op] rfl
      rw [run_snoc]
      have hv := step_view handler (run handler (initial w authors size) steps) op
      generalize run handler (initial w authors size) steps = s at hv ihs hle
      generalize step handler s op = s' at hv
      cases hv with
      | vote => exact ihs
      | approve _ _ _ _ s' _ _ _ _ _ _ _ _ _ _ hsub => rw [hsub]; exact ihs
      | block a l b vs _ _ _ _ _ hq =>
        rw [counts_flat] at hq
        have := supermajority_small hle
        dsimp only
        omega
      | select => simp [flat]
      | quiet _ s' _ _ hsub => rw [hsub]; exact ihs
  generalize hS : run handler (initial w authors size) steps = s at *
  refine ⟨?_, ?_⟩
  · intro x hx
    obtain ⟨h1, h2⟩ := List.mem_filter.1 hx
    have h3 : hasVoted s.submitted x = false := by simpa using h2
    have h4 : hasVoted s.votes x = false := by rw [hvotes]; rfl
    unfold workerRound
    dsimp only
    rw [hact]
    dsimp only
    unfold submitLatestBlock hasCastedVote
    rw [hme x h1, h3, h4]
    rfl
  · have hmap : (hs.filter fun x => !hasVoted s.submitted x).map (fun x => Step.submitBlock (W := W) x ((node x).latest % 2 ^ 32)) =
        ((hs.filter fun x => !hasVoted s.submitted x).map fun x => (x, (node x).latest % 2 ^ 32)).map
          fun y => Step.submitBlock y.1 y.2 := by
      rw [List.map_map]; rfl
    rw [hmap]
    have hfst : ((hs.filter fun x => !hasVoted s.submitted x).map fun x => (x, (node x).latest % 2 ^ 32)).map Prod.fst =
        hs.filter fun x => !hasVoted s.submitted x := by rw [List.map_map]; simp [Function.comp_def]
    refine blocks_select handler _ s hvalid hsize im hact hle hsmall (by rw [hfst]; exact hnd.filter _) ?_ ?_ ?_
    · intro y hy
      obtain ⟨x, hx, rfl⟩ := List.mem_map.1 hy
      obtain ⟨h1, h2⟩ := List.mem_filter.1 hx
      exact ⟨hauth x h1, by simpa using h2⟩
    · obtain ⟨x, hx, hxv⟩ := hone
      intro he
      have : x ∈ hs.filter fun x => !hasVoted s.submitted x := List.mem_filter.2 ⟨hx, by rw [hxv]; rfl⟩
      rw [List.map_eq_nil_iff] at he
      rw [he] at this; simp at this
    · rw [List.length_map]
      have hvoted : (hs.filter fun x => hasVoted s.submitted x).length ≤ (flat s.submitted).length := by
        have hsub : (hs.filter fun x => hasVoted s.submitted x) ⊆ (flat s.submitted).map Prod.fst := by
          intro x hx
          obtain ⟨e, he, hxe⟩ := (hasVoted_iff s.submitted x).1 (List.mem_filter.1 hx).2
          exact List.mem_map.2 ⟨(x, e.1), (mem_flat _ _ _).2 ⟨e.2, he, hxe⟩, rfl⟩
        have := ((hnd.filter _).subperm hsub).length_le
        rwa [List.length_map] at this
      have hsplit := List.length_eq_length_filter_add (l := hs) (fun x => hasVoted s.submitted x)
      omega

/-- **C98, partial.** While a range is active whose additional transactions are in blocks up to its end and whose logs can be read: if a
quorum of the authors are honest and each of them has voted already or has a node on the agreed chain for which the end of the range is
final, and at least one has not voted yet, then there is one partition, the active one, for which the tasks of all those who have not
voted submit a vote, and executing these votes, in whatever order, makes the pallet process it. (What is missing: additional
transactions after the end of the range, see `C98_additional_transactions_split_votes`, and unreadable logs, see
`C71_unparsable_log_blocks_range`.) -/
theorem C98_partition_is_settled_partial (F : List Log) (R : Hash → Option Nat) (honest : Nat → Prop) (w : W) (authors : List Nat)
    (size : Nat) (steps : List (Step W)) (hh : HonestHistory handler code contract F R honest (initial w authors size) steps)
    (hb : FewDishonest handler honest (initial w authors size) steps) (hbound : AuthorsBounded handler (initial w authors size) steps)
    (act : Active) (hact : (run handler (initial w authors size) steps).active = some act) (hlen : 0 < act.range.length)
    (hmax : act.range.start < 4294967295) (hadd : AdditionalInTime R act) (hread : Readable contract F act.range.endBlock)
    (hs : List Nat) (hnd : hs.Nodup) (hauth : ∀ x ∈ hs, honest x ∧ x ∈ (run handler (initial w authors size) steps).authors)
    (hq : quorum (run handler (initial w authors size) steps).authors ≤ hs.length) (node : Nat → Node)
    (hnode : ∀ x ∈ hs, hasVoted (run handler (initial w authors size) steps).votes x = false →
      (node x).me = x ∧ Faithful F R (node x) ∧ act.range.endBlock + 20 ≤ (node x).latest)
    (hone : ∃ x ∈ hs, hasVoted (run handler (initial w authors size) steps).votes x = false) :
    let s := run handler (initial w authors size) steps
    let waiting := hs.filter fun x => !hasVoted s.votes x
    ∃ p : Partition, p.range = act.range ∧ p.number = act.partition ∧
      (∀ x ∈ waiting, workerRound code contract (node x) ⟨s, s, s, s⟩ = some (.submitEvents x p)) ∧
      ∃ new, (run handler s (waiting.map fun x => .submitEvents x p)).log = s.log ++ new ∧ Obs.approved p ∈ new := by
  dsimp only
  obtain ⟨gs, hgs⟩ := identify_total (lo := act.range.start) hread (Nat.le_refl _)
  have hex := partition_exists hh hb hact hlen hmax hadd hgs
  have hpb := partition_bound handler w authors size steps act hact
  have hn : act.partition < 65536 := by unfold maxU16 at hpb; omega
  obtain ⟨im, ic⟩ := run_votes_inv handler (initial w authors size) rfl steps
  have hpos := votes_position handler w authors size steps
  have hsub := active_submitted handler w authors size steps (by rw [hact]; simp)
  have hsmall := votes_small handler w authors size steps hbound
  have hvalid := run_valid handler w authors size steps
  have hle := hbound steps [] (by simp)
  have hfilter := C78_filter_is_core handler w authors size steps act hact
  -- honest authors who have voted, voted for the partition
  have hvoted : ∀ x ∈ hs, hasVoted (run handler (initial w authors size) steps).votes x = true →
      x ∈ lookupVotes (run handler (initial w authors size) steps).votes (thePartition code contract F R act gs) := by
    intro x hx hv
    obtain ⟨⟨q, vs⟩, he, hxe⟩ := (hasVoted_iff _ x).1 hv
    obtain ⟨act', h1, h2, h3⟩ := hpos _ he
    rw [hact] at h1; cases h1
    obtain ⟨pre, post, g1, -, -⟩ := ic q vs x he hxe
    obtain ⟨nd, k1, k2, k3⟩ := honest_vote (m := .submitEvents x q :: post) hh g1 (hauth x hx).1 (by rw [← g1]; exact hact) h2 h3 hlen hmax
    have hthe := vote_is_the k1 hn hadd k2 hgs k3
    rw [← hthe, lookup_of_mem im.1 he]
    exact hxe
  generalize hS : run handler (initial w authors size) steps = s at *
  refine ⟨thePartition code contract F R act gs, rfl, rfl, ?_, ?_⟩
  · intro x hx
    obtain ⟨h1, h2⟩ := List.mem_filter.1 hx
    have h3 : hasVoted s.votes x = false := by simpa using h2
    obtain ⟨k1, k2, k3⟩ := hnode x h1 h3
    have hw : wantedSignatures s = coreWanted := by
      unfold wantedSignatures; rw [hact]; dsimp only; rw [hfilter]; rfl
    have ha : additionalTransactions s = act.additional.map numHash := by
      unfold additionalTransactions; rw [hact]
    unfold workerRound
    dsimp only
    rw [hact]
    dsimp only
    rw [if_pos (by unfold blockFinalised ethFinality; exact decide_eq_true k3)]
    unfold processEvents hasCastedVote
    dsimp only
    rw [k1, h3, hsub, hw, ha, node_votes k2 hn hadd hread k3 hgs hex]
    rfl
  · refine votes_settle handler _ s hvalid hact rfl rfl hle (Nat.lt_trans (lookup_small hsmall _) (by decide)) (hnd.filter _) ?_ ?_ ?_
    · intro x hx
      obtain ⟨h1, h2⟩ := List.mem_filter.1 hx
      exact ⟨(hauth x h1).2, by simpa using h2⟩
    · obtain ⟨x, hx, hxv⟩ := hone
      intro he
      have : x ∈ hs.filter fun x => !hasVoted s.votes x := List.mem_filter.2 ⟨hx, by rw [hxv]; rfl⟩
      rw [he] at this; simp at this
    · have h1 : (hs.filter fun x => hasVoted s.votes x).length ≤
          (lookupVotes s.votes (thePartition code contract F R act gs)).length := by
        refine ((hnd.filter _).subperm ?_).length_le
        intro x hx
        obtain ⟨h1, h2⟩ := List.mem_filter.1 hx
        exact hvoted x h1 h2
      have hsplit := List.length_eq_length_filter_add (l := hs) (fun x => hasVoted s.votes x)
      omega

/-! ### Instances and the counterexample -/

theorem exBounded (n : Nat) : AuthorsBounded exHandler (initial 0 [1, 2, 3, 4] 10) (exHistory.take n) := by
  intro pre post he
  have hauth : ∀ n : Fin 6, (run exHandler (initial 0 [1, 2, 3, 4] 10) (exHistory.take n)).authors = [1, 2, 3, 4] := by decide +kernel
  have hlen : pre.length < 6 := by
    have := congrArg List.length he
    rw [List.length_take, List.length_append] at this
    have h5 : exHistory.length = 5 := rfl
    omega
  have hpre : exHistory.take pre.length = pre := by
    have : exHistory = pre ++ (post ++ exHistory.drop n) := by rw [← List.append_assoc, ← he, List.take_append_drop]
    rw [this]; simp
  have := hauth ⟨pre.length, hlen⟩
  dsimp only at this
  rw [hpre] at this
  rw [this]; decide

def exNodes (x : Nat) : Node := if x = 1 then exNode1 else exNode2

/-- After the first three calls of the example history (author 3 has voted for a forged partition) the nodes of authors 1 and 2 settle
the true one. -/
example : ∃ p : Partition, p.range = ⟨100, 10⟩ ∧ p.number = 0 ∧
      (∀ x ∈ [2, 1], workerRound exCode exBridge (exNodes x) ⟨run exHandler (initial 0 [1, 2, 3, 4] 10) (exHistory.take 3),
        run exHandler (initial 0 [1, 2, 3, 4] 10) (exHistory.take 3), run exHandler (initial 0 [1, 2, 3, 4] 10) (exHistory.take 3),
        run exHandler (initial 0 [1, 2, 3, 4] 10) (exHistory.take 3)⟩ = some (.submitEvents x p)) ∧
      ∃ new, (run exHandler (run exHandler (initial 0 [1, 2, 3, 4] 10) (exHistory.take 3)) ([2, 1].map fun x => .submitEvents x p)).log =
        (run exHandler (initial 0 [1, 2, 3, 4] 10) (exHistory.take 3)).log ++ new ∧ Obs.approved p ∈ new := by
  have h := C98_partition_is_settled_partial exHandler exCode exBridge exChain exReceipt (· ≠ 3) 0 [1, 2, 3, 4] 10 (exHistory.take 3)
    (HonestHistory.prefix (b := exHistory.drop 3) (by rw [List.take_append_drop]; exact exHistory_honest))
    (FewDishonest.prefix (b := exHistory.drop 3) (by rw [List.take_append_drop]; exact exHistory_few))
    (exBounded 3) ⟨⟨100, 10⟩, 0, corePrimaryFilter, []⟩ (by decide +kernel) (by decide) (by decide) (by simp [AdditionalInTime])
    (by
      intro l hl _ _ _ _
      simp only [exChain, List.mem_singleton] at hl
      subst hl
      exact ⟨exFound exTx 5, exGenuine.reads⟩) [2, 1] (by decide) (by decide +kernel) (by decide +kernel) exNodes
    (by
      intro x hx _
      simp only [List.mem_cons, List.not_mem_nil, or_false] at hx
      rcases hx with rfl | rfl
      · exact ⟨rfl, exNode2_faithful, by decide⟩
      · exact ⟨rfl, exNode1_faithful, by decide⟩) (by decide +kernel)
  have hw : ([2, 1].filter fun x => !hasVoted (run exHandler (initial 0 [1, 2, 3, 4] 10) (exHistory.take 3)).votes x) = [2, 1] := by
    decide +kernel
  dsimp only at h
  rw [hw] at h
  exact h

/-- At the beginning the blocks of authors 4 and 1 select a range. -/
example : (run exHandler (initial 0 [1, 2, 3, 4] 10) [.submitBlock 4 158, .submitBlock 1 158]).active ≠ none := by
  have h := C98_start_block_is_selected exHandler exCode exBridge 0 [1, 2, 3, 4] 10 []
    (by
      intro pre post he
      have := List.append_eq_nil_iff.1 he.symm
      rw [this.1]; decide) (by decide) (by decide) [4, 1] (by decide) (by decide) (by decide)
    (fun x => { exNode1 with me := x }) (by simp) (by decide)
  exact h.2

def exLate (h block : Nat) : Log := { exLiftLog (numHash h) 5 with block := some block }
def exLateChain : List Log := [exLate 1 151, exLate 2 153, exLate 3 155]
def exLateReceipt (t : Hash) : Option Nat :=
  if t = numHash 1 then some 151 else if t = numHash 2 then some 153 else if t = numHash 3 then some 155 else none
/-- A node that has seen the blocks up to `n`. -/
def exLateNode (me n : Nat) : Node :=
  { me := me, latest := n, chain := exLateChain.filter fun l => l.block.any fun b => decide (b ≤ n)
    receipt := fun t => (exLateReceipt t).filter fun b => decide (b ≤ n), order := id }
def exVote (l : List (Nat × Nat)) : Partition :=
  ⟨⟨100, 10⟩, 0, true, l.map fun x => ⟨⟨signature .lifted, x.1, 7⟩, x.2⟩⟩
def exSplit : List (Step Nat) :=
  [.admin [] (.queueAdditional 1), .admin [] (.queueAdditional 2), .admin [] (.queueAdditional 3), .submitBlock 1 150, .submitBlock 2 152,
   .submitEvents 1 (exVote []), .submitEvents 2 (exVote [(1, 151)]), .submitEvents 3 (exVote [(1, 151), (2, 153)]),
   .submitEvents 4 (exVote [(1, 151), (2, 153), (3, 155)])]

theorem exLateNode_faithful (me n : Nat) : Faithful exLateChain exLateReceipt (exLateNode me n) where
  logs := by
    unfold exLateNode
    dsimp only
    rw [List.filter_filter]
    apply List.filter_congr
    intro l _
    cases l.block with
    | none => rfl
    | some b =>
      simp only [Option.any_some]
      by_cases h : b + 20 ≤ n
      · have h2 : b ≤ n := by omega
        simp [h, h2]
      · simp [h]
  receipts := by
    intro t b hb
    change b + 20 ≤ n at hb
    change (exLateReceipt t).filter _ = some b ↔ _
    rw [Option.filter_eq_some_iff]
    constructor
    · exact fun h => h.1
    · exact fun h => ⟨h, by simp; omega⟩
  oneBlock := by
    intro l hl l' hl' tx h1 h2
    have hm : l ∈ exLateChain := (List.mem_filter.1 hl).1
    have hm' : l' ∈ exLateChain := (List.mem_filter.1 hl').1
    have key : ∀ l ∈ exLateChain, ∀ l' ∈ exLateChain, l.txHash = l'.txHash → l.block = l'.block := by decide +kernel
    exact key l hm l' hm' (h1.trans h2.symm)
  order := fun l => List.Perm.refl l

/-- **C98 is false in general.** Three additional transactions are queued whose blocks (151, 153, 155) come after the range 100 to 109 that
becomes active; the four authors, all honest and on the same chain, look at slightly different times, so each sees a different number of
these transactions and votes for a different partition. All have voted, nothing is processed, and no author's vote is accepted any
more: discovery stands still until the administrator intervenes. -/
theorem C98_additional_transactions_split_votes :
    HonestHistory exHandler exCode exBridge exLateChain exLateReceipt (fun _ => True) (initial 0 [1, 2, 3, 4] 10) exSplit ∧
    Readable exBridge exLateChain 200 ∧
    (run exHandler (initial 0 [1, 2, 3, 4] 10) exSplit).active = some ⟨⟨100, 10⟩, 0, corePrimaryFilter, [1, 2, 3]⟩ ∧
    (∀ p, Obs.approved p ∉ (run exHandler (initial 0 [1, 2, 3, 4] 10) exSplit).log) ∧
    ∀ a p, step exHandler (run exHandler (initial 0 [1, 2, 3, 4] 10) exSplit) (.submitEvents a p) =
      run exHandler (initial 0 [1, 2, 3, 4] 10) exSplit := by
  refine ⟨?_, ?_, by decide +kernel, ?_, ?_⟩
  · have h0 : HonestHistory exHandler exCode exBridge exLateChain exLateReceipt (fun _ => True) (initial 0 [1, 2, 3, 4] 10)
        ([] : List (Step Nat)) := by
      intro pre op post x he
      simp at he
    have hq : ∀ (a : List (Step Nat)) (h : Nat),
        HonestHistory exHandler exCode exBridge exLateChain exLateReceipt (fun _ => True) (initial 0 [1, 2, 3, 4] 10) a →
        HonestHistory exHandler exCode exBridge exLateChain exLateReceipt (fun _ => True) (initial 0 [1, 2, 3, 4] 10)
          (a ++ [.admin [] (.queueAdditional h)]) := fun a h ha => ha.snoc (fun x hx => by cases hx)
    have hb : ∀ (a : List (Step Nat)) (x n : Nat) (op : Step Nat),
        HonestHistory exHandler exCode exBridge exLateChain exLateReceipt (fun _ => True) (initial 0 [1, 2, 3, 4] 10) a →
        caller op = some x →
        workerRound exCode exBridge (exLateNode x n) ⟨run exHandler (initial 0 [1, 2, 3, 4] 10) a, run exHandler (initial 0 [1, 2, 3, 4] 10) a,
          run exHandler (initial 0 [1, 2, 3, 4] 10) a, run exHandler (initial 0 [1, 2, 3, 4] 10) a⟩ = some op →
        HonestHistory exHandler exCode exBridge exLateChain exLateReceipt (fun _ => True) (initial 0 [1, 2, 3, 4] 10) (a ++ [op]) := by
      intro a x n op ha hc h
      refine ha.snoc (fun y hy _ => ?_)
      rw [hc] at hy; cases hy
      exact ByWorker.now (exLateNode x n) (exLateNode_faithful x n) h
    have h3 := hq _ 3 (hq _ 2 (hq _ 1 h0))
    have h4 := hb _ 1 150 (.submitBlock 1 150) h3 rfl (by decide +kernel)
    have h5 := hb _ 2 152 (.submitBlock 2 152) h4 rfl (by decide +kernel)
    have h6 := hb _ 1 150 (.submitEvents 1 (exVote [])) h5 rfl (by decide +kernel)
    have h7 := hb _ 2 152 (.submitEvents 2 (exVote [(1, 151)])) h6 rfl (by decide +kernel)
    have h8 := hb _ 3 154 (.submitEvents 3 (exVote [(1, 151), (2, 153)])) h7 rfl (by decide +kernel)
    have h9 := hb _ 4 156 (.submitEvents 4 (exVote [(1, 151), (2, 153), (3, 155)])) h8 rfl (by decide +kernel)
    exact h9
  · intro l hl _ _ _ _
    have key : ∀ l ∈ exLateChain, (match parseLog l with | .ok _ => true | .error _ => false) = true := by decide +kernel
    have := key l hl
    cases hp : parseLog l with
    | ok f => exact ⟨f, rfl⟩
    | error e => rw [hp] at this; cases this
  · intro p hp
    have key : ∀ o ∈ (run exHandler (initial 0 [1, 2, 3, 4] 10) exSplit).log, (match o with | .approved _ => false | _ => true) = true := by
      decide +kernel
    have := key _ hp
    cases this
  · intro a p
    have hvoted : ∀ a ∈ (run exHandler (initial 0 [1, 2, 3, 4] 10) exSplit).authors,
        hasVoted (run exHandler (initial 0 [1, 2, 3, 4] 10) exSplit).votes a = true := by decide +kernel
    generalize run exHandler (initial 0 [1, 2, 3, 4] 10) exSplit = s at hvoted
    simp only [step]
    by_cases ha : isAuthor s a = true
    · rw [if_pos ha]
      have hv := hvoted a (by simpa [isAuthor] using ha)
      have : (submitEvents exHandler s a p).2.isSome = true := by
        cases hr : (submitEvents exHandler s a p).2 with
        | some e => rfl
        | none =>
          obtain ⟨_, _, _, _, _, _, h, _⟩ := submitEvents_ok exHandler hr
          rw [hv] at h; cases h
      rw [transactional, if_pos this]
    · rw [if_neg ha]

end Verif.Discovery
