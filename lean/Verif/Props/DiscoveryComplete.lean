import Verif.Props.Discovery

/-!
# Property C97: no bridge event is lost
-/

namespace Verif.Discovery

open Verif (Addr Hash)
open Verif.EthBridge
open Verif.EventsClient
open Verif.Events (ValidEvent signature tryFrom corePrimaryFilter)
open Verif.Parsing (EventData)

variable {W : Type} {handler : W → EthEvent → W × Bool} {code : EventData → Nat} {contract : Addr}

/-- The signatures asked for while a range is active. -/
def coreWanted : List Hash := corePrimaryFilter.map fun k => numHash (signature k)

theorem coreWanted_not_transfers : ¬ WantsTransfers coreWanted := by
  rintro ⟨s, hs, hse⟩
  obtain ⟨k, hk, rfl⟩ := List.mem_map.1 hs
  rw [hashNat_signature] at hse
  have := signature_inj hse
  subst this
  exact core_not_transfer hk

theorem genuine_sig {F : List Log} {l : Log} {f : Found} {k : ValidEvent} (hg : GenuineEvent contract F l f k) :
    hashNat f.sig = signature k ∧ f.sig ∈ coreWanted := by
  obtain ⟨t, ts, ht, hs⟩ := hg.kind
  obtain ⟨ts', ht'⟩ := (parseLog_ok hg.reads).2.1
  rw [ht] at ht'; cases ht'
  refine ⟨hs, List.mem_map.2 ⟨k, hg.handledKind, ?_⟩⟩
  apply hashNat_inj
  rw [hashNat_signature, hs]

theorem genuine_bridge {F : List Log} {l : Log} {f : Found} {k : ValidEvent} (hg : GenuineEvent contract F l f k) :
    BridgeLog [contract] l := ⟨by simp [hg.ofBridge], k, core_primary k hg.handledKind, hg.kind⟩

/-- A genuine event that is the only one of its transaction is found in every range around its block that can be read. -/
theorem genuine_found {F : List Log} {l : Log} {f : Found} {k : ValidEvent} (hg : GenuineEvent contract F l f k)
    (hone : ∀ l' ∈ F, BridgeLog [contract] l' → l'.txHash = l.txHash → l' = l) {lo hi : Nat} (h1 : lo ≤ f.block) (h2 : f.block ≤ hi)
    {gs : List Found} (h : identifyEvents F lo hi [contract] coreWanted = .ok gs) : f ∈ gs := by
  rw [mem_identify h]
  refine ⟨(genuine_sig hg).2, l, ?_, hg.reads⟩
  obtain ⟨htx, -, hblk⟩ := parseLog_ok hg.reads
  have hc : l ∈ candidates F lo hi [contract] coreWanted :=
    candidates_mem.2 ⟨hg.onChain, ⟨f.block, hblk, h1, h2⟩, .inl (genuine_bridge hg)⟩
  cases hfl : firstLog (candidates F lo hi [contract] coreWanted) f.tx with
  | none =>
    have := List.find?_eq_none.1 hfl l hc
    simp [htx] at this
  | some l' =>
    have h1 := candidates_mem.1 (List.mem_of_find?_eq_some hfl)
    have h2 := List.find?_some hfl
    have hb : BridgeLog [contract] l' := h1.2.2.resolve_right (fun h => coreWanted_not_transfers h.1)
    rw [hone l' h1.1 hb (by rw [htx]; simpa using h2)]

/-- The sorted events of a range up to its end. -/
def rangeList (code : EventData → Nat) (contract : Addr) (F : List Log) (R : Hash → Option Nat) (act : Active) (gs : List Found) :
    List Discovered :=
  sortD ((canonEvents F R [contract] coreWanted (act.additional.map numHash) act.range gs).map (toDiscovered code))

/-- **What an approved partition settles.** -/
theorem approve_settles {F : List Log} {R : Hash → Option Nat} {honest : Nat → Prop} {w : W} {authors : List Nat} {size : Nat}
    {steps pre post : List (Step W)} {op : Step W} {p : Partition} {act : Active}
    (hh : HonestHistory handler code contract F R honest (initial w authors size) steps)
    (hb : FewDishonest handler honest (initial w authors size) steps) (he : steps = pre ++ op :: post)
    (ha : Approves handler (initial w authors size) pre op p) (hact : (run handler (initial w authors size) pre).active = some act)
    (hlen : 0 < act.range.length) (hmax : act.range.start < maxU32) :
    ∃ gs, identifyEvents F act.range.start act.range.endBlock [contract] coreWanted = .ok gs ∧
      (p.isLast = true → (rangeList code contract F R act gs).length ≤ 32 * (act.partition + 1)) ∧
      ∀ j d k, 32 * act.partition ≤ j → j < 32 * (act.partition + 1) → (rangeList code contract F R act gs)[j]? = some d →
        tryFrom d.event.signature = some k → k ∈ corePrimaryFilter → d.block ≤ act.range.endBlock →
        ((step handler (run handler (initial w authors size) pre) op).processed d.event.txHash).isSome = true := by
  obtain ⟨p1, p2, p3, p4, p5, nd, act1, r1, r2, r3, r4, r5⟩ := approved_by_worker rfl hh hb he ha
  obtain ⟨new, hl, hp⟩ := ha
  rw [run_snoc] at hl
  obtain ⟨act0, -, q1, q2, q3, -⟩ := C14_approved_is_active handler _ op p new hl (mem_approvedOf.2 hp)
  rw [hact] at q1; cases q1
  obtain ⟨hrange, hnum, -⟩ := C74_vote_is_what_was_found code nd.order r2.order _ _ _ _ _ _ _ p r5
  have er : act1.range = act.range := by rw [← q2, hrange]
  have en : act1.partition = act.partition := by rw [← q3, hnum]
  -- the queries saw the same filter and additional transactions
  have hact2 : ∃ act2, (run handler (initial w authors size) (p1 ++ p2)).active = some act2 := by
    rw [run_append]
    obtain ⟨b, h1, -⟩ := run_later handler _ p2 act1 r3 (partition_bound handler w authors size p1 act1 r3)
    exact ⟨b, h1⟩
  obtain ⟨act2, hact2⟩ := hact2
  have hw : wantedSignatures (run handler (initial w authors size) (p1 ++ p2)) = coreWanted := by
    unfold wantedSignatures
    rw [hact2]
    dsimp only
    rw [C78_filter_is_core handler w authors size _ act2 hact2]
    rfl
  have hadd : additionalTransactions (run handler (initial w authors size) (p1 ++ p2 ++ p3 ++ p4)) = act.additional.map numHash := by
    have hact4 : ∃ act4, (run handler (initial w authors size) (p1 ++ p2 ++ p3 ++ p4)).active = some act4 ∧ Later act1 act4 := by
      rw [List.append_assoc, List.append_assoc, run_append]
      obtain ⟨b, h1, h2, -⟩ := run_later handler _ (p2 ++ (p3 ++ p4)) act1 r3 (partition_bound handler w authors size p1 act1 r3)
      exact ⟨b, h1, h2⟩
    obtain ⟨act4, h4, hlat⟩ := hact4
    have hl2 := same_range handler w authors size (p1 ++ p2 ++ p3 ++ p4) p5 act4 act h4 (by rw [← r1]; exact hact)
    obtain ⟨e1, e2⟩ := hl2
    obtain ⟨e3, e4⟩ := e2 hmax
    obtain ⟨g1, g2⟩ := hlat
    obtain ⟨g3, -⟩ := g2 (by omega)
    have e5 := (e4 (by omega) (by rw [er] at g3; omega)).2.2.1
    unfold additionalTransactions
    rw [h4]
    dsimp only
    rw [e5]
  rw [hw, hadd, er, en] at r5
  rw [er] at r4
  have hnb := partition_bound handler w authors size pre act hact
  obtain ⟨gs, tail, s1, s2, -, s3, s4, s5, s6⟩ := vote_shape r2 (by unfold maxU16 at hnb; omega) r4 r5
  refine ⟨gs, s1, ?_, ?_⟩
  · intro hlast
    have := s6.1 hlast
    rw [List.length_append] at this
    unfold rangeList; omega
  · intro j d k h1 h2 h3 h4 h5 h6
    have hd : d ∈ p.events := by
      rw [s5, EthBridge.dedupAdj_mem]
      have hlt : j < (rangeList code contract F R act gs).length := (List.getElem?_eq_some_iff.1 h3).1
      have h3' : (rangeList code contract F R act gs ++ tail)[j]? = some d := by
        rw [List.getElem?_append_left hlt]; exact h3
      have : (((rangeList code contract F R act gs ++ tail).drop (32 * act.partition)).take 32)[j - 32 * act.partition]? = some d := by
        rw [List.getElem?_take_of_lt (by omega), List.getElem?_drop]
        rw [show 32 * act.partition + (j - 32 * act.partition) = j by omega]
        exact h3'
      exact List.mem_of_getElem? this
    obtain ⟨n2, l2, g1, g2, g3⟩ := step_grow handler (run handler (initial w authors size) pre) op
    cases hpr : (run handler (initial w authors size) pre).processed d.event.txHash with
    | some v => exact g1 _ (by rw [hpr]; rfl)
    | none =>
      obtain ⟨act', c1, c2⟩ := C78_approved_events_are_applied handler _ op p new hl (mem_approvedOf.2 hp)
      rw [hact] at c1; cases c1
      have hfil : k ∈ act.filter := by rw [C78_filter_is_core handler w authors size pre act hact]; exact h5
      have := (c2 d hd k h4 hfil h6 hpr).1
      have hnn : new = n2 := List.append_cancel_left (hl.symm.trans l2)
      rw [hnn] at this
      exact (g3 _ this).2

theorem selected_active (w : W) (authors : List Nat) (size : Nat) (steps : List (Step W)) (r0 : EthBridge.Range)
    (hr : Obs.rangeSelected r0 ∈ (run handler (initial w authors size) steps).log) :
    (run handler (initial w authors size) steps).active ≠ none := by
  induction steps using List.reverseRecOn with
  | nil => simp [run, initial] at hr
  | append_singleton steps op ih =>
    rw [run_snoc] at hr ⊢
    have hv := step_view handler (run handler (initial w authors size) steps) op
    generalize run handler (initial w authors size) steps = s at hv hr ih
    generalize step handler s op = s' at hv hr
    cases hv with
    | vote a p act vs hauth hok hact => intro h; dsimp only at h; rw [hact] at h; cases h
    | approve a q act vs s' hauth hok hact hr' hn hv hi hq hvotes hauths hsub hact' => rw [hact']; simp
    | block a l b vs hauth hact =>
      refine ih ?_
      rcases List.mem_append.1 hr with h | h
      · exact h
      · simp at h
    | select => simp
    | quiet op s' hlog hact => rw [hlog] at hr; rw [hact]; exact ih hr

/-- A genuine event of a range that has been left behind has been settled. -/
theorem settled {F : List Log} {R : Hash → Option Nat} {honest : Nat → Prop} {w : W} {authors : List Nat} {size : Nat}
    {l : Log} {f : Found} {k : ValidEvent} (hg : GenuineEvent contract F l f k)
    (hone : ∀ l' ∈ F, BridgeLog [contract] l' → l'.txHash = l.txHash → l' = l) (steps : List (Step W))
    (hh : HonestHistory handler code contract F R honest (initial w authors size) steps)
    (hb : FewDishonest handler honest (initial w authors size) steps) (act : Active)
    (hact : (run handler (initial w authors size) steps).active = some act) (hlen : 0 < act.range.length)
    (hmax : act.range.start < maxU32) (r0 : EthBridge.Range)
    (hr : Obs.rangeSelected r0 ∈ (run handler (initial w authors size) steps).log) (hr0 : r0.start ≤ f.block) :
    (f.block < act.range.start → ((run handler (initial w authors size) steps).processed (hashNat f.tx)).isSome = true) ∧
    (act.range.start ≤ f.block → f.block ≤ act.range.endBlock → ∀ gs,
      identifyEvents F act.range.start act.range.endBlock [contract] coreWanted = .ok gs →
      ∀ j < 32 * act.partition, (rangeList code contract F R act gs)[j]? = some (toDiscovered code f) →
        ((run handler (initial w authors size) steps).processed (hashNat f.tx)).isSome = true) := by
  induction steps using List.reverseRecOn generalizing act with
  | nil => simp [run, initial] at hact
  | append_singleton steps op ih =>
    have ihp := ih hh.prefix hb.prefix
    have hgrow : ((run handler (initial w authors size) steps).processed (hashNat f.tx)).isSome = true →
        ((run handler (initial w authors size) (steps ++ [op])).processed (hashNat f.tx)).isSome = true := by
      rw [run_snoc]
      obtain ⟨n2, l2, g1, -⟩ := step_grow handler (run handler (initial w authors size) steps) op
      exact g1 _
    have hv := step_view handler (run handler (initial w authors size) steps) op
    cases hpa : (run handler (initial w authors size) steps).active with
    | none =>
      -- the range was selected just now
      have hnone : Obs.rangeSelected r0 ∉ (run handler (initial w authors size) steps).log := fun h =>
        selected_active w authors size steps r0 h hpa
      rw [run_snoc] at hact hr
      generalize run handler (initial w authors size) steps = s at hv hact hr hpa hnone
      generalize step handler s op = s' at hv hact hr
      cases hv with
      | vote _ _ _ _ _ _ h => rw [hpa] at h; cases h
      | approve _ _ _ _ _ _ _ h => rw [hpa] at h; cases h
      | block => dsimp only at hact; rw [hpa] at hact; cases hact
      | quiet op s' hlog h => rw [h, hpa] at hact; cases hact
      | select a' l' b vs r =>
        have e : r0 = r := by
          rcases List.mem_append.1 hr with h | h
          · rcases List.mem_append.1 h with h | h
            · exact absurd h hnone
            · simp at h
          · simpa using h
        subst e
        cases hact
        refine ⟨fun h => ?_, fun _ _ gs _ j hj => ?_⟩
        · dsimp only at h; omega
        · dsimp only at hj; omega
    | some pact =>
      have hsel : Obs.rangeSelected r0 ∈ (run handler (initial w authors size) steps).log := by
        rw [run_snoc] at hr
        generalize run handler (initial w authors size) steps = s at hv hr hpa
        generalize step handler s op = s' at hv hr
        cases hv with
        | vote =>
          rcases List.mem_append.1 hr with h | h
          · exact h
          · simp at h
        | approve a q act' vs s' hauth hok hact0 hr' hn hv hi hq hvotes hauths hsub hact' hqueue hgrow new' hlog hnew =>
          rw [hlog] at hr
          rcases List.mem_append.1 hr with h | h
          · exact h
          · rcases List.mem_append.1 h with h | h
            · simp at h
            · obtain ⟨d, _, h | h | h⟩ := hnew _ h <;> cases h
        | block _ _ _ _ _ h => rw [hpa] at h; cases h
        | select _ _ _ _ _ _ h => rw [hpa] at h; cases h
        | quiet op s' hlog => rw [hlog] at hr; exact hr
      have hlat := same_range handler w authors size steps [op] pact act hpa hact
      obtain ⟨hl1, hl2⟩ := hlat
      obtain ⟨hl3, -⟩ := hl2 hmax
      obtain ⟨i1, i2⟩ := ihp pact hpa (by omega) (by omega) hsel
      by_cases happ : ∃ p, Approves handler (initial w authors size) steps op p
      · obtain ⟨p, happ⟩ := happ
        obtain ⟨gs, a1, a2, a3⟩ := approve_settles hh hb rfl happ hpa (by omega) (by omega)
        have hblkd : (toDiscovered code f).block = f.block := rfl
        have htxd : (toDiscovered code f).event.txHash = hashNat f.tx := rfl
        have hkd : tryFrom (toDiscovered code f).event.signature = some k := by
          have : (toDiscovered code f).event.signature = hashNat f.sig := rfl
          rw [this, (genuine_sig hg).1, tryFrom_signature]
        -- everything up to the end of this partition is settled
        have key : pact.range.start ≤ f.block → f.block ≤ pact.range.endBlock → ∀ j < 32 * (pact.partition + 1),
            (rangeList code contract F R pact gs)[j]? = some (toDiscovered code f) →
            ((run handler (initial w authors size) (steps ++ [op])).processed (hashNat f.tx)).isSome = true := by
          intro h1 h2 j hj hget
          by_cases hlt : j < 32 * pact.partition
          · exact hgrow (i2 h1 h2 gs a1 j hlt hget)
          · have := a3 j _ k (by omega) hj hget hkd hg.handledKind (by rw [hblkd]; exact h2)
            rw [run_snoc, ← htxd]; exact this
        obtain ⟨new, hlog, hpm⟩ := happ
        rw [run_snoc] at hact hlog
        generalize hs' : step handler (run handler (initial w authors size) steps) op = s' at hact hlog hv
        cases hv with
        | vote =>
          rw [List.append_cancel_left hlog.symm] at hpm; simp at hpm
        | block _ _ _ _ _ h => rw [hpa] at h; cases h
        | select _ _ _ _ _ _ h => rw [hpa] at h; cases h
        | quiet op s' hq =>
          rw [hq] at hlog
          have : new = [] := by simpa using hlog
          subst this; simp at hpm
        | approve a q act' vs s' hauth hok hact0 hr' hn hv hi hq hvotes hauths hsub hact' hqueue hgrow' new' hlog' hnew =>
          have hnew' : new = [.eventVote a q, .approved q] ++ new' := by
            rw [hlog'] at hlog; exact (List.append_cancel_left hlog).symm
          have hpq : p = q := by
            rw [hnew'] at hpm
            rcases List.mem_append.1 hpm with h | h
            · simpa using h
            · obtain ⟨d, _, h | h | h⟩ := hnew _ h <;> cases h
          subst hpq
          rw [hpa] at hact0; cases hact0
          rw [hact] at hact'
          cases hlast : p.isLast with
          | true =>
            rw [hlast, if_pos rfl] at hact'
            cases hact'
            refine ⟨fun hlt => ?_, fun _ _ gs' _ j hj => ?_⟩
            · by_cases hst : f.block < pact.range.start
              · exact hgrow (i1 hst)
              · have hstart : pact.range.next.start = pact.range.start + pact.range.length := by
                  simp only [Range.next] at hmax ⊢; omega
                have hend : f.block ≤ pact.range.endBlock := by
                  dsimp only at hlt
                  rw [hstart] at hlt
                  simp only [Range.next] at hmax
                  unfold Range.endBlock; omega
                have hfg := genuine_found hg hone (by omega) hend a1
                have hmem : toDiscovered code f ∈ rangeList code contract F R pact gs := by
                  unfold rangeList canonEvents
                  rw [(sortD_perm _).mem_iff]
                  exact List.mem_map.2 ⟨f, List.mem_append_right _ hfg, rfl⟩
                obtain ⟨j, hj, hget⟩ := List.getElem_of_mem hmem
                have := a2 hlast
                exact key (by omega) hend j (by omega) (by rw [List.getElem?_eq_getElem hj, hget])
            · dsimp only at hj; omega
          | false =>
            rw [hlast] at hact'
            simp only [Bool.false_eq_true, if_false] at hact'
            cases hact'
            refine ⟨fun hlt => hgrow (i1 hlt), fun h1 h2 gs' hgs' j hj hget => ?_⟩
            dsimp only at h1 h2 hgs' hj hget
            rw [a1] at hgs'
            cases hgs'
            exact key h1 h2 j (Nat.lt_of_lt_of_le hj (Nat.mul_le_mul_left 32 (Nat.min_le_left _ _))) hget
      · -- the position did not change
        obtain ⟨new, hlog, -⟩ := step_grow handler (run handler (initial w authors size) steps) op
        have hno : approvedOf new = [] := by
          rw [List.eq_nil_iff_forall_not_mem]
          intro p hp
          exact happ ⟨p, new, by rw [run_snoc]; exact hlog, mem_approvedOf.1 hp⟩
        have hsame := C14_position_changes_only_on_approval handler _ op pact hpa new hlog hno
        rw [run_snoc, hsame] at hact
        cases hact
        exact ⟨fun h => hgrow (i1 h), fun h1 h2 gs hgs j hj hget => hgrow (i2 h1 h2 gs hgs j hj hget)⟩

variable (handler code contract)

/-- **C97.** If, whenever a partition of events was processed, fewer dishonest accounts than the quorum had voted for it, then discovery
has lost nothing it has passed: every genuine event of the bridge contract that is the only one of its transaction, in a block at or
after the start block selected at the beginning and before the range that is now active, has been handed to the runtime, unless its
transaction was recorded as processed by another pallet or a migration. (Ranges are not empty, and block numbers below the limit of
their type.) -/
theorem C97_no_event_is_lost (F : List Log) (R : Hash → Option Nat) (honest : Nat → Prop) (w : W) (authors : List Nat)
    (size : Nat) (steps : List (Step W)) (hh : HonestHistory handler code contract F R honest (initial w authors size) steps)
    (hb : FewDishonest handler honest (initial w authors size) steps) (act : Active)
    (hact : (run handler (initial w authors size) steps).active = some act) (hlen : 0 < act.range.length)
    (hmax : act.range.start < 4294967295) (r0 : EthBridge.Range)
    (hr : Obs.rangeSelected r0 ∈ (run handler (initial w authors size) steps).log)
    (l : Log) (f : Found) (k : ValidEvent) (hg : GenuineEvent contract F l f k)
    (hone : ∀ l' ∈ F, BridgeLog [contract] l' → l'.txHash = l.txHash → l' = l) (hfrom : r0.start ≤ f.block)
    (hpast : f.block < act.range.start) :
    Obs.handled (toDiscovered code f).event ∈ (run handler (initial w authors size) steps).log ∨
      ∃ op ∈ steps, RecordsElsewhere (hashNat f.tx) op := by
  have hp := (settled hg hone steps hh hb act hact hlen hmax r0 hr hfrom).1 hpast
  rcases run_processed_origin handler _ steps _ hp with h | ⟨new, h1, h2⟩ | h
  · simp [initial] at h
  · left
    unfold handledHashes at h2
    obtain ⟨o, ho, he⟩ := List.mem_filterMap.1 h2
    have hm : o ∈ (run handler (initial w authors size) steps).log := by rw [h1]; exact List.mem_append_right _ ho
    cases o with
    | handled e =>
      simp only [Option.some.injEq] at he
      obtain ⟨l', f', k', hg', rfl⟩ := C96_handled_events_are_genuine handler code contract F R honest w authors size steps hh hb e hm
      have htx : f'.tx = f.tx := hashNat_inj he
      have hll : l' = l := hone l' hg'.onChain (genuine_bridge hg') (by
        rw [(parseLog_ok hg'.reads).1, (parseLog_ok hg.reads).1, htx])
      subst hll
      have := hg'.reads
      rw [hg.reads] at this
      cases this
      exact hm
    | _ => simp at he
  · exact .inr h

/-- In the concrete history of C96 the range 110 to 119 is now active and the lift in block 100 has been handed over. -/
example : Obs.handled (toDiscovered exCode (exFound exTx 5)).event ∈ (run exHandler (initial 0 [1, 2, 3, 4] 10) exHistory).log ∨
      ∃ op ∈ exHistory, RecordsElsewhere (hashNat (exFound exTx 5).tx) op :=
  C97_no_event_is_lost exHandler exCode exBridge exChain exReceipt (· ≠ 3) 0 [1, 2, 3, 4] 10 exHistory exHistory_honest exHistory_few
    ⟨⟨110, 10⟩, 0, corePrimaryFilter, []⟩ (by decide +kernel) (by decide) (by decide) ⟨100, 10⟩ (by decide +kernel) (exLiftLog exTx 5)
    (exFound exTx 5) .lifted exGenuine (fun l hl _ _ => by simpa [exChain] using hl) (by decide) (by decide)

end Verif.Discovery
