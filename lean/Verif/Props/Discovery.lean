import Verif.Lemmas.DiscoveryPallet
import Verif.Lemmas.DiscoveryClient
import Mathlib.Data.List.Perm.Subperm

/-!
# Properties C96 and C97: discovered events are genuine, and none is lost

The Ethereum chain on which everybody will agree is given by its logs `F` and the blocks of its transactions `R`. Honest accounts call
the bridge pallet only through rounds of their discovery task (`workerRound`), whose queries see earlier states of the same history and
whose Ethereum node agrees with `F` and `R` on all blocks with at least 20 successors (`Faithful`); everything else about it, such as the
blocks after these, is arbitrary. Everybody else's calls are arbitrary. `code` numbers the event payloads; `contract` is the bridge
contract; `handler` is the rest of the runtime.
-/

namespace Verif.Discovery

open Verif (Addr Hash)
open Verif.EthBridge
open Verif.EventsClient
open Verif.Events (ValidEvent signature tryFrom corePrimaryFilter)
open Verif.Parsing (EventData)

variable {W : Type} (handler : W → EthEvent → W × Bool) (code : EventData → Nat) (contract : Addr)

/-! ### Specification -/

/-- The author in whose name a call is made. -/
def caller : Step W → Option Nat
  | .submitEvents a _ => some a
  | .submitBlock a _ => some a
  | _ => none

/-- The call `op`, made after `pre`, is what one round of account `x`'s node submitted: the round made its four queries at four
states of the history so far, in this order. -/
def ByWorker (F : List Log) (R : Hash → Option Nat) (x : Nat) (g : State W) (pre : List (Step W)) (op : Step W) : Prop :=
  ∃ (p1 p2 p3 p4 p5 : List (Step W)) (nd : Node), pre = p1 ++ p2 ++ p3 ++ p4 ++ p5 ∧ nd.me = x ∧ Faithful F R nd ∧
    workerRound code contract nd ⟨run handler g p1, run handler g (p1 ++ p2), run handler g (p1 ++ p2 ++ p3),
      run handler g (p1 ++ p2 ++ p3 ++ p4)⟩ = some op

/-- A history in which the honest accounts' calls all come from their nodes. -/
def HonestHistory (F : List Log) (R : Hash → Option Nat) (honest : Nat → Prop) (g : State W) (steps : List (Step W)) : Prop :=
  ∀ pre op post x, steps = pre ++ op :: post → caller op = some x → honest x → ByWorker handler code contract F R x g pre op

/-- The call `op`, made after `pre`, made the pallet process partition `p`. -/
def Approves (g : State W) (pre : List (Step W)) (op : Step W) (p : Partition) : Prop :=
  ∃ new, (run handler g (pre ++ [op])).log = (run handler g pre).log ++ new ∧ Obs.approved p ∈ new

/-- Whenever a partition was processed, the dishonest accounts that had voted for it were fewer than the quorum. -/
def FewDishonest (honest : Nat → Prop) (g : State W) (steps : List (Step W)) : Prop :=
  ∀ pre op post p, steps = pre ++ op :: post → Approves handler g pre op p →
    ∃ bad : List Nat, bad.length < quorum (run handler g pre).authors ∧
      ∀ x, CastVote handler g (pre ++ [op]) x p → ¬ honest x → x ∈ bad

/-- A bridge event of a kind the bridge handles, as its log reads. -/
structure GenuineEvent (F : List Log) (l : Log) (f : Found) (k : ValidEvent) : Prop where
  onChain : l ∈ F
  ofBridge : l.address = contract
  kind : HasKind l k
  handledKind : k ∈ corePrimaryFilter
  reads : parseLog l = .ok f

/-! ### Histories -/

variable {handler code contract}

theorem HonestHistory.prefix {F : List Log} {R : Hash → Option Nat} {honest : Nat → Prop} {g : State W} {a b : List (Step W)}
    (h : HonestHistory handler code contract F R honest g (a ++ b)) : HonestHistory handler code contract F R honest g a := by
  intro pre op post x he hc hx
  exact h pre op (post ++ b) x (by rw [he]; simp) hc hx

theorem FewDishonest.prefix {honest : Nat → Prop} {g : State W} {a b : List (Step W)}
    (h : FewDishonest handler honest g (a ++ b)) : FewDishonest handler honest g a := by
  intro pre op post p he ha
  exact h pre op (post ++ b) p (by rw [he]; simp) ha

theorem log_origin (g : State W) (steps : List (Step W)) (o : Obs) (h : o ∈ (run handler g steps).log) (h0 : o ∉ g.log) :
    ∃ pre op post, steps = pre ++ op :: post ∧ ∃ new, (step handler (run handler g pre) op).log = (run handler g pre).log ++ new ∧ o ∈ new := by
  induction steps using List.reverseRecOn with
  | nil => exact absurd h h0
  | append_singleton steps op ih =>
    rw [run_snoc] at h
    obtain ⟨new, hl, -⟩ := step_grow handler (run handler g steps) op
    rw [hl] at h
    rcases List.mem_append.1 h with h | h
    · obtain ⟨pre, op', post, he, r⟩ := ih h
      exact ⟨pre, op', post ++ [op], by rw [he]; simp, r⟩
    · exact ⟨steps, op, [], rfl, new, hl, h⟩

theorem mem_approvedOf {p : Partition} {l : List Obs} : p ∈ approvedOf l ↔ Obs.approved p ∈ l := by
  unfold approvedOf
  rw [List.mem_filterMap]
  constructor
  · rintro ⟨o, ho, he⟩
    cases o <;> simp at he
    subst he; exact ho
  · intro h; exact ⟨_, h, rfl⟩

/-! ### What a round votes for -/

theorem worker_vote {nd : Node} {r : Reads W} {x : Nat} {p : Partition}
    (h : workerRound code contract nd r = some (.submitEvents x p)) :
    ∃ act, r.atRange.active = some act ∧ nd.me = x ∧ act.range.endBlock + 20 ≤ nd.latest ∧ hasCastedVote r.atVoted x = false ∧
      partitionToVote code nd.order nd.chain nd.receipt [contract] (wantedSignatures r.atSignatures)
        (additionalTransactions r.atAdditional) act.range act.partition = some p := by
  unfold workerRound at h
  cases ha : r.atRange.active with
  | none =>
    rw [ha] at h
    dsimp only at h
    unfold submitLatestBlock at h
    split at h <;> simp at h
  | some act =>
    rw [ha] at h
    dsimp only at h
    by_cases hb : blockFinalised nd act.range.endBlock = true
    · rw [if_pos hb] at h
      unfold processEvents at h
      by_cases hv : hasCastedVote r.atVoted nd.me = true
      · rw [if_pos hv] at h; cases h
      · rw [if_neg hv] at h
        split at h
        · cases h
        · rename_i q hq
          cases h
          refine ⟨act, rfl, rfl, ?_, by simpa using hv, hq⟩
          simpa [blockFinalised, ethFinality] using hb
    · rw [if_neg hb] at h; cases h

theorem hashNat_signature (k : ValidEvent) : hashNat (numHash (signature k)) = signature k := by
  cases k <;> decide +kernel

theorem tryFrom_signature (k : ValidEvent) : tryFrom (signature k) = some k := by cases k <;> decide +kernel

theorem core_not_transfer : ValidEvent.erc20DirectTransfer ∉ corePrimaryFilter := by decide +kernel
theorem core_primary : ∀ k ∈ corePrimaryFilter, Events.isPrimary k = true := by decide +kernel

theorem signature_inj {k k' : ValidEvent} (h : signature k = signature k') : k = k' := by
  have := tryFrom_signature k
  rw [h, tryFrom_signature] at this
  cases this; rfl

theorem wanted_core (w : W) (authors : List Nat) (size : Nat) (steps : List (Step W)) (s : Hash)
    (h : s ∈ wantedSignatures (run handler (initial w authors size) steps)) :
    ∃ k ∈ corePrimaryFilter, s = numHash (signature k) := by
  unfold wantedSignatures at h
  cases ha : (run handler (initial w authors size) steps).active with
  | none => rw [ha] at h; simp at h
  | some act =>
    rw [ha] at h
    dsimp only at h
    rw [C78_filter_is_core handler w authors size steps act ha] at h
    obtain ⟨k, hk, rfl⟩ := List.mem_map.1 h
    exact ⟨k, hk, rfl⟩

/-- Every event in a vote is a bridge event the node found. -/
theorem vote_event {order : List Found → List Found} (ho : ∀ l, (order l).Perm l) {chain : List Log} {receipt : Hash → Option Nat}
    {contracts : List Addr} {wanted additional : List Hash} {range : EthBridge.Range} {n : Nat} {p : Partition}
    (h : partitionToVote code order chain receipt contracts wanted additional range n = some p) {d : Discovered} (hd : d ∈ p.events) :
    ∃ f l, d = toDiscovered code f ∧ f.sig ∈ wanted ∧ l ∈ chain ∧ parseLog l = .ok f ∧
      (BridgeLog contracts l ∨ (WantsTransfers wanted ∧ DirectTransferLog contracts l)) := by
  unfold partitionToVote at h
  split at h
  · rename_i fs gs h1 h2
    have hmem := List.mem_of_find?_eq_some h
    have hin := (C16_no_event_lost range ((order (fs ++ gs)).map (toDiscovered code)) d).1 ⟨p, hmem, hd⟩
    obtain ⟨f, hf, rfl⟩ := List.mem_map.1 hin
    have hs : Seen chain contracts wanted f := by
      rcases List.mem_append.1 ((ho _).mem_iff.1 hf) with hf | hf
      · exact additional_seen h1 f hf
      · exact ⟨_, _, gs, h2, hf⟩
    obtain ⟨lo, hi, fs', h3, h4⟩ := hs
    obtain ⟨h5, l, h6, h8, h7⟩ := (C71_reports_only_real_events chain lo hi contracts wanted fs' h3).1 f h4
    exact ⟨f, l, rfl, h5, h6, h7, h8.2⟩
  · cases h

theorem faithful_mem {F : List Log} {R : Hash → Option Nat} {nd : Node} (hf : Faithful F R nd) {l : Log} {b : Nat}
    (hl : l ∈ nd.chain) (hb : l.block = some b) (hd : b + 20 ≤ nd.latest) : l ∈ F := by
  have : l ∈ nd.chain.filter (fun l => l.block.any fun b => decide (b + 20 ≤ nd.latest)) :=
    List.mem_filter.2 ⟨hl, by simp [hb, hd]⟩
  rw [hf.logs] at this
  exact (List.mem_filter.1 this).1

/-- A partition that was processed is the vote of a faithful node. -/
theorem approved_by_worker {F : List Log} {R : Hash → Option Nat} {honest : Nat → Prop} {g : State W} (hg : g.votes = [])
    {steps pre post : List (Step W)} {op : Step W} {p : Partition}
    (hh : HonestHistory handler code contract F R honest g steps) (hb : FewDishonest handler honest g steps)
    (he : steps = pre ++ op :: post) (ha : Approves handler g pre op p) :
    ∃ (p1 p2 p3 p4 p5 : List (Step W)) (nd : Node) (act : Active), pre = p1 ++ p2 ++ p3 ++ p4 ++ p5 ∧ Faithful F R nd ∧
      (run handler g p1).active = some act ∧ act.range.endBlock + 20 ≤ nd.latest ∧
      partitionToVote code nd.order nd.chain nd.receipt [contract] (wantedSignatures (run handler g (p1 ++ p2)))
        (additionalTransactions (run handler g (p1 ++ p2 ++ p3 ++ p4))) act.range act.partition = some p := by
  obtain ⟨bad, hlen, hbad⟩ := hb pre op post p he ha
  obtain ⟨new, hl, hp⟩ := ha
  obtain ⟨voters, hn, hq, hv⟩ := C13_partition_needs_quorum handler g hg pre op p new hl (mem_approvedOf.2 hp)
  have hx : ∃ x ∈ voters, honest x := by
    refine Classical.byContradiction (fun hno => ?_)
    have hsub : voters ⊆ bad := fun x hx => hbad x (hv x hx) (fun hx' => hno ⟨x, hx, hx'⟩)
    have := (hn.subperm hsub).length_le
    omega
  obtain ⟨x, hxv, hx⟩ := hx
  obtain ⟨pre', post', h1, -, -⟩ := hv x hxv
  obtain ⟨p1, p2, p3, p4, p5, nd, h2, h3, h4, h5⟩ := hh pre' (.submitEvents x p) (post' ++ post) x
    (by rw [he, ← List.singleton_append, ← List.append_assoc, h1]; simp) rfl hx
  obtain ⟨act, k1, k2, k3, k4, k5⟩ := worker_vote h5
  rcases List.eq_nil_or_concat post' with rfl | ⟨post2, o, rfl⟩
  · obtain ⟨e1, -⟩ := List.append_inj' h1 rfl
    exact ⟨p1, p2, p3, p4, p5, nd, act, by rw [e1, h2], h4, k1, k3, k5⟩
  · simp only [List.concat_eq_append, ← List.cons_append, ← List.append_assoc] at h1
    obtain ⟨e1, -⟩ := List.append_inj' h1 rfl
    exact ⟨p1, p2, p3, p4, p5 ++ .submitEvents x p :: post2, nd, act, by rw [e1, h2]; simp, h4, k1, k3, k5⟩

variable (handler code contract)

/-! ### C96 -/

/-- **C96.** If, whenever a partition of events was processed, fewer dishonest accounts than the quorum had voted for it, then every event
handed to the runtime is a genuine event of the bridge contract on the finalised Ethereum chain, of a kind the bridge handles, with
the transaction and the data of its log. -/
theorem C96_handled_events_are_genuine (F : List Log) (R : Hash → Option Nat) (honest : Nat → Prop) (w : W) (authors : List Nat)
    (size : Nat) (steps : List (Step W)) (hh : HonestHistory handler code contract F R honest (initial w authors size) steps)
    (hb : FewDishonest handler honest (initial w authors size) steps) (e : EthEvent)
    (hm : Obs.handled e ∈ (run handler (initial w authors size) steps).log) :
    ∃ l f k, GenuineEvent contract F l f k ∧ e = (toDiscovered code f).event := by
  obtain ⟨pre, op, post, h1, new, h2, h3⟩ := log_origin _ steps _ hm (by simp [initial])
  obtain ⟨act, p, d, k1, k2, k3, k4, k5, -⟩ := handled_origin handler _ op e new h2 h3
  obtain ⟨act0, -, q1, q2, -⟩ := C14_approved_is_active handler _ op p new h2 k2
  rw [k1] at q1; cases q1
  have hap : Approves handler (initial w authors size) pre op p := ⟨new, by rw [run_snoc]; exact h2, mem_approvedOf.1 k2⟩
  obtain ⟨p1, p2, p3, p4, p5, nd, act1, r1, r2, r3, r4, r5⟩ := approved_by_worker rfl hh hb h1 hap
  have hrange := (C74_vote_is_what_was_found code nd.order r2.order _ _ _ _ _ _ _ p r5).1
  obtain ⟨f, l, m1, m2, m3, m4, m5⟩ := vote_event r2.order r5 k3
  obtain ⟨k, hk, hsig⟩ := wanted_core w authors size (p1 ++ p2) f.sig m2
  have hblock := (parseLog_ok m4).2.2
  have hin : l ∈ F := by
    refine faithful_mem r2 m3 hblock ?_
    have : d.block = f.block := by rw [m1]; rfl
    rw [← q2, hrange] at k5
    omega
  have hnot : ¬ WantsTransfers (wantedSignatures (run handler (initial w authors size) (p1 ++ p2))) := by
    rintro ⟨s, hs, hse⟩
    obtain ⟨k', hk', rfl⟩ := wanted_core w authors size (p1 ++ p2) s hs
    rw [hashNat_signature] at hse
    have := signature_inj hse
    subst this
    exact core_not_transfer hk'
  have hbridge : BridgeLog [contract] l := m5.resolve_right (fun h => hnot h.1)
  obtain ⟨ts, hts⟩ := (parseLog_ok m4).2.1
  refine ⟨l, f, k, ⟨hin, by simpa using hbridge.1, ⟨f.sig, ts, hts, ?_⟩, hk, m4⟩, by rw [← k4, m1]⟩
  rw [hsig, hashNat_signature]

/-! ### A concrete history: authors 1 to 4, of which 3 is dishonest -/

variable {handler code contract}

theorem HonestHistory.snoc {F : List Log} {R : Hash → Option Nat} {honest : Nat → Prop} {g : State W} {a : List (Step W)} {op : Step W}
    (h : HonestHistory handler code contract F R honest g a)
    (h' : ∀ x, caller op = some x → honest x → ByWorker handler code contract F R x g a op) :
    HonestHistory handler code contract F R honest g (a ++ [op]) := by
  intro pre o post x he hc hx
  rcases List.eq_nil_or_concat post with rfl | ⟨post', o', rfl⟩
  · obtain ⟨e1, e2⟩ := List.append_inj' he rfl
    cases e2; subst e1
    exact h' x hc hx
  · simp only [List.concat_eq_append, ← List.cons_append, ← List.append_assoc] at he
    obtain ⟨e1, -⟩ := List.append_inj' he rfl
    exact h pre o post' x e1 hc hx

/-- A node whose round sees the present state submits that round's call. -/
theorem ByWorker.now {F : List Log} {R : Hash → Option Nat} {g : State W} {a : List (Step W)} {op : Step W} (nd : Node)
    (hf : Faithful F R nd) (h : workerRound code contract nd ⟨run handler g a, run handler g a, run handler g a, run handler g a⟩ = some op) :
    ByWorker handler code contract F R nd.me g a op :=
  ⟨a, [], [], [], [], nd, by simp, rfl, hf, by simpa using h⟩

deriving instance DecidableEq for EthBridge.Step

/-- A lift in block 100, final; and one in block 150, which only node 2 has seen and which is not final. -/
def exChain : List Log := [exLiftLog exTx 5]
def exPending : Log := { exLiftLog exTx2 6 with block := some 150 }
def exReceipt (_ : Hash) : Option Nat := none
def exCode (_ : EventData) : Nat := 7
def exNode1 : Node := { me := 1, latest := 158, chain := exChain, receipt := exReceipt, order := id }
def exNode2 : Node := { me := 2, latest := 160, chain := exPending :: exChain, receipt := exReceipt, order := List.reverse }

/-- The true partition of blocks 100 to 109, and a forged one. -/
def exTrue : Partition := ⟨⟨100, 10⟩, 0, true, [toDiscovered exCode (exFound exTx 5)]⟩
def exForged : Partition := ⟨⟨100, 10⟩, 0, true, [toDiscovered exCode (exFound exTx2 99)]⟩
def exHistory : List (Step Nat) :=
  [.submitBlock 1 158, .submitBlock 2 160, .submitEvents 3 exForged, .submitEvents 1 exTrue, .submitEvents 2 exTrue]

theorem exNode1_faithful : Faithful exChain exReceipt exNode1 :=
  ⟨by decide +kernel, fun _ _ _ => Iff.rfl, by
    intro l hl l' hl' tx _ _
    simp only [exNode1, exChain, List.mem_singleton] at hl hl'
    rw [hl, hl'], fun l => List.Perm.refl l⟩

theorem exNode2_faithful : Faithful exChain exReceipt exNode2 :=
  ⟨by decide +kernel, fun _ _ _ => Iff.rfl, by
    intro l hl l' hl' tx h1 h2
    have hne : exPending.txHash ≠ (exLiftLog exTx 5).txHash := by decide +kernel
    simp only [exNode2, exChain, List.mem_cons, List.not_mem_nil, or_false] at hl hl'
    rcases hl with rfl | rfl <;> rcases hl' with rfl | rfl
    · rfl
    · exact absurd (h1.trans h2.symm) hne
    · exact absurd (h2.trans h1.symm) hne
    · rfl, fun l => List.reverse_perm l⟩

theorem exHistory_honest : HonestHistory exHandler exCode exBridge exChain exReceipt (· ≠ 3) (initial 0 [1, 2, 3, 4] 10) exHistory := by
  have h0 : HonestHistory exHandler exCode exBridge exChain exReceipt (· ≠ 3) (initial 0 [1, 2, 3, 4] 10) ([] : List (Step Nat)) := by
    intro pre op post x he
    simp at he
  refine HonestHistory.snoc (a := [.submitBlock 1 158, .submitBlock 2 160, .submitEvents 3 exForged, .submitEvents 1 exTrue])
    (HonestHistory.snoc (a := [.submitBlock 1 158, .submitBlock 2 160, .submitEvents 3 exForged])
      (HonestHistory.snoc (a := [.submitBlock 1 158, .submitBlock 2 160])
        (HonestHistory.snoc (a := [.submitBlock 1 158]) (HonestHistory.snoc (a := []) h0 ?_) ?_) ?_) ?_) ?_
  · rintro x hx -; cases hx; exact ByWorker.now exNode1 exNode1_faithful (by decide +kernel)
  · rintro x hx -; cases hx; exact ByWorker.now exNode2 exNode2_faithful (by decide +kernel)
  · rintro x hx h; cases hx; exact absurd rfl h
  · rintro x hx -; cases hx; exact ByWorker.now exNode1 exNode1_faithful (by decide +kernel)
  · rintro x hx -; cases hx; exact ByWorker.now exNode2 exNode2_faithful (by decide +kernel)

theorem exHistory_few : FewDishonest exHandler (· ≠ 3) (initial 0 [1, 2, 3, 4] 10) exHistory := by
  intro pre op post p he _
  refine ⟨[3], ?_, fun x _ hx => ?_⟩
  · have hauth : ∀ n : Fin 6, (run exHandler (initial 0 [1, 2, 3, 4] 10) (exHistory.take n)).authors = [1, 2, 3, 4] := by decide +kernel
    have hlen : pre.length < 6 := by
      have := congrArg List.length he
      simp [exHistory] at this; omega
    have hpre : exHistory.take pre.length = pre := by rw [he]; simp
    have := hauth ⟨pre.length, hlen⟩
    dsimp only at this
    rw [hpre] at this
    rw [this]; decide
  · by_cases h : x = 3
    · simp [h]
    · exact absurd h hx

theorem exGenuine : GenuineEvent exBridge exChain (exLiftLog exTx 5) (exFound exTx 5) .lifted :=
  ⟨by simp [exChain], rfl, ⟨sigHash .lifted, _, rfl, by decide +kernel⟩, by decide +kernel, by decide +kernel⟩

/-- The lift, and only it, is handed to the runtime in this history. -/
theorem exHandled : Obs.handled (toDiscovered exCode (exFound exTx 5)).event ∈
    (run exHandler (initial 0 [1, 2, 3, 4] 10) exHistory).log := by decide +kernel

example : ∃ l f k, GenuineEvent exBridge exChain l f k ∧ (toDiscovered exCode (exFound exTx 5)).event = (toDiscovered exCode f).event :=
  C96_handled_events_are_genuine exHandler exCode exBridge exChain exReceipt (· ≠ 3) 0 [1, 2, 3, 4] 10 exHistory exHistory_honest
    exHistory_few _ exHandled

end Verif.Discovery
