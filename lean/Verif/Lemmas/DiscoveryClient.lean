import Verif.Model.DiscoveryWorker
import Verif.Props.EventsClientBlocks

/-!
# Lemmas about the events honest nodes report for one range
-/

namespace Verif.Discovery

open Verif (Addr Hash)
open Verif.EthBridge (Discovered Partition sortD chunks chunksAux dedupAdj createPartitions leD)
open Verif.EventsClient
open Verif.Parsing (EventData)

/-- A node that is not on a fork: the logs and receipts of blocks with at least 20 successors are those of the chain with logs `F` and
receipts `R`; all logs of one transaction are in one block; and iterating a hash map yields its entries in some order. -/
structure Faithful (F : List Log) (R : Hash → Option Nat) (nd : Node) : Prop where
  logs : nd.chain.filter (fun l => l.block.any fun b => decide (b + 20 ≤ nd.latest)) =
    F.filter (fun l => l.block.any fun b => decide (b + 20 ≤ nd.latest))
  receipts : ∀ t b, b + 20 ≤ nd.latest → (nd.receipt t = some b ↔ R t = some b)
  oneBlock : TxInOneBlock nd.chain
  order : ∀ l, (nd.order l).Perm l

theorem filter_through {α : Type} {l l' : List α} {q : α → Bool} (h : l.filter q = l'.filter q) {p : α → Bool}
    (hpq : ∀ a, p a = true → q a = true) : l.filter p = l'.filter p := by
  have key : ∀ l : List α, l.filter p = (l.filter q).filter p := by
    intro l
    rw [List.filter_filter]
    apply List.filter_congr
    intro a _
    by_cases hp : p a = true
    · rw [hp, hpq a hp]; rfl
    · simp [hp]
  rw [key l, key l', h]

theorem candidates_eq {F : List Log} {R : Hash → Option Nat} {nd : Node} (hf : Faithful F R nd) (lo hi : Nat)
    (hd : hi + 20 ≤ nd.latest) (contracts : List Addr) (wanted : List Hash) :
    candidates nd.chain lo hi contracts wanted = candidates F lo hi contracts wanted := by
  have hin : ∀ l : Log, inRange lo hi l = true → (l.block.any fun b => decide (b + 20 ≤ nd.latest)) = true := by
    intro l hl
    unfold inRange at hl
    cases hb : l.block with
    | none => rw [hb] at hl; cases hl
    | some b => rw [hb] at hl; simp only [decide_eq_true_eq] at hl; simp; omega
  have h1 : ∀ ks, primaryLogs nd.chain lo hi contracts ks = primaryLogs F lo hi contracts ks := by
    intro ks
    refine filter_through hf.logs ?_
    intro l hl
    simp only [Bool.and_eq_true] at hl
    exact hin l hl.1.1
  have h2 : ∀ ks, secondaryLogs nd.chain lo hi contracts ks = secondaryLogs F lo hi contracts ks := by
    intro ks
    refine filter_through hf.logs ?_
    intro l hl
    simp only [Bool.and_eq_true] at hl
    exact hin l hl.1.1
  unfold candidates
  rw [h1, h2]

theorem identify_same {F : List Log} {R : Hash → Option Nat} {nd : Node} (hf : Faithful F R nd) (lo hi : Nat)
    (hd : hi + 20 ≤ nd.latest) (contracts : List Addr) (wanted : List Hash) :
    identifyEvents nd.chain lo hi contracts wanted = identifyEvents F lo hi contracts wanted := by
  rw [identify_eq, identify_eq, candidates_eq hf lo hi hd]

/-- The events of the additional transactions in blocks up to `hi`. -/
def canonAdditional (F : List Log) (R : Hash → Option Nat) (contracts : List Addr) (wanted : List Hash) (hi : Nat) :
    List Hash → List Found
  | [] => []
  | t :: ts =>
    (match R t with
      | some b => if b ≤ hi then (match identifyEvents F b b contracts wanted with | .ok fs => fs | .error _ => []) else []
      | none => []) ++ canonAdditional F R contracts wanted hi ts

theorem identify_blocks {chain : List Log} {lo hi : Nat} {contracts : List Addr} {wanted : List Hash} {fs : List Found}
    (h : identifyEvents chain lo hi contracts wanted = .ok fs) : ∀ f ∈ fs, lo ≤ f.block ∧ f.block ≤ hi := by
  intro f hf
  obtain ⟨-, l, -, ⟨⟨b, hb, h1, h2⟩, -⟩, hp⟩ := (C71_reports_only_real_events chain lo hi contracts wanted fs h).1 f hf
  have := (parseLog_ok hp).2.2
  rw [hb] at this; cases this
  exact ⟨h1, h2⟩

theorem additional_canon {F : List Log} {R : Hash → Option Nat} {nd : Node} (hf : Faithful F R nd) {hi : Nat}
    (hd : hi + 20 ≤ nd.latest) {contracts : List Addr} {wanted : List Hash} {ts : List Hash} {fs : List Found}
    (h : identifyAdditional nd.chain nd.receipt contracts wanted ts = .ok fs) :
    fs.filter (fun f => decide (f.block ≤ hi)) = canonAdditional F R contracts wanted hi ts := by
  induction ts generalizing fs with
  | nil => cases h; rfl
  | cons t ts ih =>
    unfold identifyAdditional at h
    rw [canonAdditional]
    cases hr : nd.receipt t with
    | none =>
      rw [hr] at h
      have hx : (match R t with
        | some b => if b ≤ hi then (match identifyEvents F b b contracts wanted with | .ok fs => fs | .error _ => []) else []
        | none => []) = ([] : List Found) := by
        cases hR : R t with
        | none => rfl
        | some b =>
          by_cases hb : b ≤ hi
          · have := (hf.receipts t b (by omega)).2 hR
            rw [hr] at this; cases this
          · simp [hb]
      rw [hx]
      exact ih h
    | some b =>
      rw [hr] at h
      dsimp only at h
      cases h1 : identifyEvents nd.chain b b contracts wanted with
      | error e => rw [h1] at h; cases h
      | ok f1 =>
        cases h2 : identifyAdditional nd.chain nd.receipt contracts wanted ts with
        | error e => rw [h1, h2] at h; cases h
        | ok f2 =>
          rw [h1, h2] at h
          cases h
          rw [List.filter_append, ih h2]
          congr 1
          have hblk := identify_blocks h1
          by_cases hb : b ≤ hi
          · rw [(hf.receipts t b (by omega)).1 hr]
            dsimp only
            rw [if_pos hb, ← identify_same hf b b (by omega), h1]
            dsimp only
            rw [List.filter_eq_self]
            intro f hm
            have := hblk f hm
            simp; omega
          · have e1 : f1.filter (fun f => decide (f.block ≤ hi)) = [] := by
              rw [List.filter_eq_nil_iff]
              intro f hm
              have := hblk f hm
              simp; omega
            rw [e1]
            cases hR : R t with
            | none => rfl
            | some b' =>
              by_cases hb' : b' ≤ hi
              · have := (hf.receipts t b' (by omega)).2 hR
                rw [hr] at this
                cases this
                exact absurd hb' hb
              · simp [hb']

/-! ### Partitions as slices of the sorted list -/

theorem chunksAux_get (n : Nat) (hn : 0 < n) : ∀ (f : Nat) (l : List Discovered) (i : Nat), l.length ≤ f →
    (chunksAux n f l)[i]? = if n * i < l.length then some ((l.drop (n * i)).take n) else none := by
  intro f
  induction f with
  | zero =>
    intro l i hl
    have : l = [] := List.length_eq_zero_iff.1 (by omega)
    subst this
    simp [chunksAux]
  | succ f ih =>
    intro l i hl
    cases l with
    | nil => simp [chunksAux]
    | cons x l =>
      rw [chunksAux]
      · cases i with
        | zero => simp
        | succ i =>
          rw [List.getElem?_cons_succ, ih ((x :: l).drop n) i (by rw [List.length_drop]; omega)]
          rw [List.length_drop, List.drop_drop]
          have e : n + n * i = n * (i + 1) := by ring
          rw [e]
          by_cases h : n * (i + 1) < (x :: l).length
          · rw [if_pos h, if_pos (by omega)]
          · rw [if_neg h, if_neg (by omega)]
      · simp

theorem chunks_get (l : List Discovered) (i : Nat) :
    (chunks 32 l)[i]? = if 32 * i < l.length then some ((l.drop (32 * i)).take 32) else none :=
  chunksAux_get 32 (by omega) _ l i (Nat.le_refl _)

theorem chunks_length_lt (l : List Discovered) (i : Nat) : i < (chunks 32 l).length ↔ 32 * i < l.length := by
  have h := chunks_get l i
  constructor
  · intro hi
    rw [List.getElem?_eq_getElem hi] at h
    by_cases h2 : 32 * i < l.length
    · exact h2
    · rw [if_neg h2] at h; cases h
  · intro hi
    rw [if_pos hi] at h
    exact (List.getElem?_eq_some_iff.1 h).1

/-- The partition with number `n`: the `n`-th slice of 32 of the sorted events. -/
theorem find_partition {range : EthBridge.Range} {events : List Discovered} {n : Nat} (hn : n < 65536) {p : Partition}
    (h : (createPartitions range events).find? (fun p => p.number == n) = some p) :
    p.range = range ∧ p.number = n ∧ p.events = dedupAdj (((sortD events).drop (32 * n)).take 32) ∧
      (p.isLast = true ↔ (sortD events).length ≤ 32 * (n + 1)) := by
  unfold createPartitions at h
  dsimp only at h
  by_cases he : EthBridge.number range (chunks 32 (sortD events)).length 0 (chunks 32 (sortD events)) = []
  · rw [if_pos he] at h
    have hz : sortD events = [] := by
      have := EthBridge.number_length range (chunks 32 (sortD events)).length (chunks 32 (sortD events)) 0
      rw [he] at this
      have h0 := chunks_length_lt (sortD events) 0
      simp only [List.length_nil] at this
      rw [← this] at h0
      exact List.length_eq_zero_iff.1 (by omega)
    rw [hz]
    have hp := List.mem_of_find?_eq_some h
    have hnum := List.find?_some h
    simp only [List.mem_singleton] at hp
    subst hp
    have : n = 0 := by simpa using Eq.symm (by simpa using hnum)
    subst this
    simp [dedupAdj]
  · rw [if_neg he] at h
    obtain ⟨hp, i, hi, hget, hfirst⟩ := List.find?_eq_some_iff_getElem.1 h
    have hlen := EthBridge.number_length range (chunks 32 (sortD events)).length (chunks 32 (sortD events)) 0
    have hnum : ∀ j (hj : j < (EthBridge.number range (chunks 32 (sortD events)).length 0 (chunks 32 (sortD events))).length),
        ((EthBridge.number range (chunks 32 (sortD events)).length 0 (chunks 32 (sortD events)))[j]).number = j % 65536 := by
      intro j hj
      have := EthBridge.number_get range (chunks 32 (sortD events)).length (chunks 32 (sortD events)) 0 j
      rw [List.getElem?_eq_getElem hj] at this
      obtain ⟨c, -, hc⟩ := Option.map_eq_some_iff.1 this.symm
      rw [← hc]; simp
    have hin : i = n := by
      have h1 := hnum i hi
      rw [hget] at h1
      have h2 : p.number = n := by simpa using hp
      have hle : n ≤ i := by rw [← h2, h1]; exact Nat.mod_le _ _
      rcases Nat.lt_or_eq_of_le hle with hlt | he
      · have h3 := hfirst n hlt
        rw [hnum n (by omega), Nat.mod_eq_of_lt hn] at h3
        simp at h3
      · exact he.symm
    subst hin
    have := EthBridge.number_get range (chunks 32 (sortD events)).length (chunks 32 (sortD events)) 0 i
    rw [List.getElem?_eq_getElem hi, hget] at this
    obtain ⟨c, hc, hp'⟩ := Option.map_eq_some_iff.1 this.symm
    rw [chunks_get] at hc
    by_cases hlt : 32 * i < (sortD events).length
    · rw [if_pos hlt] at hc
      cases hc
      subst hp'
      refine ⟨rfl, by simpa using hp, rfl, ?_⟩
      have hl1 := chunks_length_lt (sortD events) i
      have hl2 := chunks_length_lt (sortD events) (i + 1)
      simp only [beq_iff_eq]
      omega
    · rw [if_neg hlt] at hc; cases hc

theorem sorted_split (l : List Discovered) (h : l.Pairwise (fun a b => leD a b = true)) (e : Nat) :
    l = l.filter (fun d => decide (d.block ≤ e)) ++ l.filter (fun d => !decide (d.block ≤ e)) := by
  induction l with
  | nil => rfl
  | cons x l ih =>
    obtain ⟨h1, h2⟩ := List.pairwise_cons.1 h
    by_cases hx : x.block ≤ e
    · simp only [List.filter_cons, hx, decide_true, if_true, Bool.not_true, Bool.false_eq_true, if_false, List.cons_append]
      rw [← ih h2]
    · have hall : ∀ d ∈ x :: l, ¬ d.block ≤ e := by
        intro d hd
        rcases List.mem_cons.1 hd with rfl | hd
        · exact hx
        · have := h1 d hd
          unfold leD at this
          simp only [Bool.or_eq_true, decide_eq_true_eq, Bool.and_eq_true, beq_iff_eq] at this
          omega
      have e1 : (x :: l).filter (fun d => decide (d.block ≤ e)) = [] := by
        rw [List.filter_eq_nil_iff]; intro d hd; simpa using hall d hd
      have e2 : (x :: l).filter (fun d => !decide (d.block ≤ e)) = x :: l := by
        rw [List.filter_eq_self]; intro d hd; simpa using hall d hd
      rw [e1, e2]; rfl

/-- What every faithful node reports for a range it has finalised, in blocks up to the end of the range. -/
def canonEvents (F : List Log) (R : Hash → Option Nat) (contracts : List Addr) (wanted additional : List Hash) (range : EthBridge.Range)
    (gs : List Found) : List Found := canonAdditional F R contracts wanted range.endBlock additional ++ gs

/-- **The vote of a faithful node.** Up to the end of the range its sorted list of events is the canonical one. -/
theorem vote_shape {code : EventData → Nat} {F : List Log} {R : Hash → Option Nat} {nd : Node} (hf : Faithful F R nd)
    {contracts : List Addr} {wanted additional : List Hash} {range : EthBridge.Range} {n : Nat} (hn : n < 65536) {p : Partition}
    (hd : range.endBlock + 20 ≤ nd.latest)
    (h : partitionToVote code nd.order nd.chain nd.receipt contracts wanted additional range n = some p) :
    ∃ gs tail, identifyEvents F range.start range.endBlock contracts wanted = .ok gs ∧ (∀ d ∈ tail, range.endBlock < d.block) ∧
      (∀ fs, identifyAdditional nd.chain nd.receipt contracts wanted additional = .ok fs → (∀ f ∈ fs, f.block ≤ range.endBlock) → tail = []) ∧
      p.range = range ∧ p.number = n ∧
      p.events = dedupAdj (((sortD ((canonEvents F R contracts wanted additional range gs).map (toDiscovered code)) ++ tail).drop
        (32 * n)).take 32) ∧
      (p.isLast = true ↔
        (sortD ((canonEvents F R contracts wanted additional range gs).map (toDiscovered code)) ++ tail).length ≤ 32 * (n + 1)) := by
  unfold partitionToVote at h
  split at h
  · rename_i fs gs h1 h2
    have hgs := h2
    rw [identify_same hf _ _ hd] at h2
    obtain ⟨q1, q2, q3, q4⟩ := find_partition hn h
    generalize hall : (nd.order (fs ++ gs)).map (toDiscovered code) = all at q3 q4
    have hu : ∀ a ∈ all, ∀ b ∈ all, a.block = b.block → a.event.txHash = b.event.txHash → a = b := by
      intro a ha b hb hblk htx
      rw [← hall] at ha hb
      have hs : ∀ f ∈ fs ++ gs, Seen nd.chain contracts wanted f := by
        intro f hf'
        rcases List.mem_append.1 hf' with hf' | hf'
        · exact additional_seen h1 f hf'
        · exact ⟨_, _, gs, hgs, hf'⟩
      obtain ⟨f, hf', rfl⟩ := List.mem_map.1 ha
      obtain ⟨g, hg, rfl⟩ := List.mem_map.1 hb
      have hf2 := hs f ((hf.order _).mem_iff.1 hf')
      have hg2 := hs g ((hf.order _).mem_iff.1 hg)
      rw [seen_unique hf.oneBlock hf2 hg2 hblk (hashNat_inj htx)]
    have hperm : (all.filter (fun d => decide (d.block ≤ range.endBlock))).Perm
        ((canonEvents F R contracts wanted additional range gs).map (toDiscovered code)) := by
      rw [← hall, List.filter_map]
      refine List.Perm.map _ ?_
      refine ((hf.order (fs ++ gs)).filter _).trans ?_
      have e : (fs ++ gs).filter ((fun d => decide (d.block ≤ range.endBlock)) ∘ toDiscovered code) =
          canonEvents F R contracts wanted additional range gs := by
        unfold canonEvents
        rw [← additional_canon hf hd h1, List.filter_append]
        congr 1
        rw [List.filter_eq_self]
        intro f hm
        have := identify_blocks hgs f hm
        exact decide_eq_true this.2
      rw [e]
    have hpre : (sortD all).filter (fun d => decide (d.block ≤ range.endBlock)) =
        sortD ((canonEvents F R contracts wanted additional range gs).map (toDiscovered code)) := by
      have p1 : ((sortD all).filter (fun d => decide (d.block ≤ range.endBlock))).Perm
          (sortD ((canonEvents F R contracts wanted additional range gs).map (toDiscovered code))) :=
        ((EthBridge.sortD_perm all).filter _).trans (hperm.trans (EthBridge.sortD_perm _).symm)
      refine p1.eq_of_pairwise ?_ ((EthBridge.sortD_sorted all).filter _) (EthBridge.sortD_sorted _)
      intro a b ha hb h1 h2
      have ha' := (EthBridge.sortD_perm all).mem_iff.1 (List.mem_filter.1 ha).1
      have hb' := (EthBridge.sortD_perm all).mem_iff.1 (List.mem_filter.1 (p1.mem_iff.2 hb)).1
      unfold leD at h1 h2
      simp only [Bool.or_eq_true, decide_eq_true_eq, Bool.and_eq_true, beq_iff_eq] at h1 h2
      exact hu a ha' b hb' (by omega) (by omega)
    have hsplit := sorted_split (sortD all) (EthBridge.sortD_sorted all) range.endBlock
    rw [hpre] at hsplit
    refine ⟨gs, (sortD all).filter (fun d => !decide (d.block ≤ range.endBlock)), h2, ?_, ?_, q1, q2, ?_, ?_⟩
    · intro d hd'
      have := (List.mem_filter.1 hd').2
      simpa using this
    · intro fs' hfs' hle
      rw [h1] at hfs'; cases hfs'
      rw [List.filter_eq_nil_iff]
      intro d hd'
      have hm := (EthBridge.sortD_perm all).mem_iff.1 hd'
      rw [← hall] at hm
      obtain ⟨f, hf', rfl⟩ := List.mem_map.1 hm
      rcases List.mem_append.1 ((hf.order _).mem_iff.1 hf') with hf' | hf'
      · have hx : decide (f.block ≤ range.endBlock) = true := decide_eq_true (hle f hf')
        change ¬ (!decide (f.block ≤ range.endBlock)) = true
        rw [hx]; simp
      · have hx : decide (f.block ≤ range.endBlock) = true := decide_eq_true (identify_blocks hgs f hf').2
        change ¬ (!decide (f.block ≤ range.endBlock)) = true
        rw [hx]; simp
    · rw [← hsplit]; exact q3
    · rw [← hsplit]; exact q4
  · cases h

end Verif.Discovery
