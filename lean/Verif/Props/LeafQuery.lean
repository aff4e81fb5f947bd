import Verif.Model.LeafQuery
import Verif.Props.Merkle
import Verif.Props.SummaryWorker

/-!
# Proving that a transaction is in a summary: C132
-/

namespace Verif.LeafQuery

open Verif.SummaryWorker

theorem scan_none (n : Nat) : ∀ (xs : List Bytes) (i : Nat) (found : Option Bytes), scan n none i xs found = found
  | [], _, _ => rfl
  | _ :: xs, i, found => by rw [scan]; exact scan_none n xs (i + 1) found

theorem scan_some (n k : Nat) : ∀ (xs : List Bytes) (i : Nat) (found : Option Bytes), i ≤ k →
    scan n (some ⟨n, k⟩) i xs found = (match xs[k - i]? with | some x => some x | none => found)
  | [], _, _, _ => rfl
  | x :: xs, i, found, h => by
    rw [scan]
    by_cases e : k = i
    · subst e
      have past : ∀ (ys : List Bytes) (j : Nat) (fd : Option Bytes), k < j → scan n (some ⟨n, k⟩) j ys fd = fd := by
        intro ys
        induction ys with
        | nil => intro j fd _; rfl
        | cons y ys ih =>
          intro j fd hj
          have : isMatch j n (some ⟨n, k⟩) = false := by simp [isMatch]; omega
          rw [scan, this, ih (j + 1) _ (by omega)]
          rfl
      rw [past xs (k + 1) _ (by omega)]
      simp [isMatch]
    · have : isMatch i n (some ⟨n, k⟩) = false := by simp [isMatch]; exact e
      rw [this, scan_some n k xs (i + 1) _ (by omega)]
      have e' : k - i = (k - (i + 1)) + 1 := by omega
      rw [e', List.getElem?_cons_succ]
      rfl

theorem scan_block (n : Nat) (f : Filter) (xs : List Bytes) :
    scan n (filterFor n f) 0 xs none = if f.block = n then xs[f.index]? else none := by
  unfold filterFor
  split
  · rename_i h
    obtain ⟨b, k⟩ := f
    cases h
    rw [scan_some _ k xs 0 none (Nat.zero_le _)]
    cases xs[k - 0]? <;> rfl
  · exact scan_none n xs 0 none

/-- What the search found at the end. -/
def outcome (c : Client) (f : Filter) (first count : Nat) (found : Option Bytes) : Option Bytes :=
  if first ≤ f.block ∧ f.block < first + count then later found ((c.block f.block).bind (·[f.index]?)) else found

theorem searchFrom_eq (c : Client) (f : Filter) : ∀ (count first : Nat) (found : Option Bytes) (leaves : List Bytes),
    searchFrom c f first count found leaves =
      (leavesFrom c first count).map (fun ls => (outcome c f first count found, leaves ++ ls))
  | 0, first, found, leaves => by
    rw [searchFrom, leavesFrom, Option.map_some]
    unfold outcome
    rw [if_neg (by omega), List.append_nil]
  | count + 1, first, found, leaves => by
    rw [searchFrom, leavesFrom]
    unfold searchBlock
    cases hb : blockLeaves c first with
    | none => rfl
    | some xs =>
      dsimp only
      rw [searchFrom_eq c f count (first + 1), scan_block]
      have hx : c.block first = some xs := by
        unfold blockLeaves at hb
        split at hb
        · cases hb
        · rename_i ys hy
          split at hb
          · cases hb
          · cases hb; exact hy
      cases hl : leavesFrom c (first + 1) count with
      | none => rfl
      | some rest =>
        simp only [Option.map_some, List.append_assoc, Option.some.injEq, Prod.mk.injEq, and_true]
        unfold outcome
        by_cases e : f.block = first
        · rw [if_pos e, if_neg (by omega), if_pos (by omega), e, hx]
          rfl
        · rw [if_neg e]
          by_cases e' : first + 1 ≤ f.block ∧ f.block < first + 1 + count
          · rw [if_pos e', if_pos (by omega)]
            rfl
          · rw [if_neg e', if_neg (by omega)]
            rfl

/-- The blocks of a range that could be read are all known and finalised. -/
theorem leavesFrom_known (c : Client) : ∀ (count first : Nat) (ls : List Bytes), leavesFrom c first count = some ls →
    ∀ n, first ≤ n → n < first + count → ∃ xs, c.block n = some xs ∧ n ≤ c.finalised ∧ ∀ x ∈ xs, x ∈ ls
  | 0, _, _, _, n, h1, h2 => by omega
  | count + 1, first, ls, h, n, h1, h2 => by
    rw [leavesFrom] at h
    split at h
    · cases h
    · rename_i xs hb
      split at h
      · cases h
      · rename_i rest hr
        cases h
        by_cases e : n = first
        · subst e
          unfold blockLeaves at hb
          split at hb
          · cases hb
          · rename_i ys hy
            split at hb
            · cases hb
            · cases hb
              exact ⟨xs, hy, by omega, fun x hx => List.mem_append_left _ hx⟩
        · obtain ⟨xs', h1', h2', h3'⟩ := leavesFrom_known c count (first + 1) rest hr n (by omega) (by omega)
          exact ⟨xs', h1', h2', fun x hx => List.mem_append_right _ (h3' x hx)⟩

/-- C132. The search answers with the leaves of the summary's tree, and with the transaction at the asked position if the position is in the range and the
block has that many transactions, and with no transaction otherwise. It fails exactly when the range's leaves cannot be had: when a block of
the range is unknown or not final. -/
theorem C132_search_finds_the_transaction (c : Client) (fromBlock toBlock : Nat) (f : Filter) :
    search c fromBlock toBlock f =
      (rangeLeaves c fromBlock toBlock).map (fun leaves =>
        (if fromBlock ≤ f.block ∧ f.block ≤ toBlock then (c.block f.block).bind (·[f.index]?) else none, leaves)) := by
  unfold search rangeLeaves
  rw [searchFrom_eq]
  congr 1
  funext ls
  rw [List.nil_append]
  unfold outcome
  congr 1
  by_cases h : fromBlock ≤ f.block ∧ f.block ≤ toBlock
  · rw [if_pos h, if_pos (by omega)]
    cases (c.block f.block).bind (·[f.index]?) <;> rfl
  · rw [if_neg h, if_neg (by omega)]

/-- C132. Every transaction of a summary can be proved to be in it: for a range whose root a node answers, and any transaction in a block of the range that is not empty, the
node finds the transaction and a path by which it verifies against that very root. -/
theorem C132_every_transaction_is_provable (H : Bytes → Bytes) (c : Client) (fromBlock toBlock : Nat) (answer : Bytes)
    (ha : rootHashAnswer H c fromBlock toBlock = some answer) (f : Filter) (h1 : fromBlock ≤ f.block) (h2 : f.block ≤ toBlock)
    (xs : List Bytes) (hb : c.block f.block = some xs) (tx : Bytes) (ht : xs[f.index]? = some tx) (hne : tx ≠ []) :
    ∃ path root, proofFor H c fromBlock toBlock f = some (tx, path) ∧ answer = Calldata.hexEncode root ∧ Merkle.verifies H root tx path := by
  unfold rootHashAnswer at ha
  cases hl : rangeLeaves c fromBlock toBlock with
  | none => rw [hl] at ha; cases ha
  | some leaves =>
    rw [hl] at ha
    dsimp only at ha
    obtain ⟨ys, hy, -, hm⟩ := leavesFrom_known c _ _ _ hl f.block h1 (by omega)
    rw [hb] at hy
    cases hy
    have hmem : tx ∈ leaves := hm tx (List.mem_of_getElem? ht)
    obtain ⟨root, path, hr, hp, hv⟩ := Merkle.C69_paths_verify H tx leaves hmem hne
    have hnil : leaves ≠ [] := List.ne_nil_of_mem hmem
    rw [if_neg hnil, hr] at ha
    cases ha
    refine ⟨path, root, ?_, rfl, hv⟩
    unfold proofFor
    rw [C132_search_finds_the_transaction, hl, Option.map_some, if_pos ⟨h1, h2⟩, hb, Option.bind_some, ht]
    dsimp only
    rw [hp]
    rfl

/-- C132. Whatever the node gives out as proved is a transaction of the range, at the asked position, in a final block, and its path verifies against the
root the node answers for the range. -/
theorem C132_proofs_are_for_transactions_of_the_range (H : Bytes → Bytes) (c : Client) (fromBlock toBlock : Nat) (f : Filter) (tx : Bytes)
    (path : List Bytes) (h : proofFor H c fromBlock toBlock f = some (tx, path)) :
    fromBlock ≤ f.block ∧ f.block ≤ toBlock ∧ f.block ≤ c.finalised ∧ (c.block f.block).bind (·[f.index]?) = some tx ∧
    ∃ root, rootHashAnswer H c fromBlock toBlock = some (Calldata.hexEncode root) ∧ Merkle.verifies H root tx path := by
  unfold proofFor at h
  split at h
  · rename_i leaf leaves hs
    rw [Option.map_eq_some_iff] at h
    obtain ⟨p, hp, e⟩ := h
    cases e
    rw [C132_search_finds_the_transaction, Option.map_eq_some_iff] at hs
    obtain ⟨ls, hl, e⟩ := hs
    cases hc : decide (fromBlock ≤ f.block ∧ f.block ≤ toBlock) with
    | false =>
      rw [decide_eq_false_iff_not] at hc
      rw [if_neg hc] at e
      cases e
    | true =>
      rw [decide_eq_true_iff] at hc
      rw [if_pos hc] at e
      injection e with e1 e2
      subst e2
      obtain ⟨xs, hb, hf, hm⟩ := leavesFrom_known c _ _ _ hl f.block hc.1 (by omega)
      have hmem : tx ∈ ls := by
        rw [hb] at e1
        exact hm tx (List.mem_of_getElem? e1)
      have hne : tx ≠ [] := by
        rintro rfl
        unfold Merkle.merklePath at hp
        rw [if_pos rfl] at hp
        cases hp
      obtain ⟨root, path', hr, hp', hv⟩ := Merkle.C69_paths_verify H tx ls hmem hne
      rw [hp] at hp'
      cases hp'
      refine ⟨hc.1, hc.2, hf, e1, root, ?_, hv⟩
      unfold rootHashAnswer
      rw [hl]
      dsimp only
      rw [if_neg (List.ne_nil_of_mem hmem), hr]
  · cases h

/-- Three blocks, the second empty; the last transaction of the third is found and proved, a position past the end is not. -/
def exClient : Client := ⟨3, fun n => if n = 1 then some [[1], [2]] else if n = 2 then some [] else if n = 3 then some [[3], [4], [5]] else none⟩

example : (proofFor Merkle.toy exClient 1 3 ⟨3, 2⟩).map (·.1) = some [5] ∧ proofFor Merkle.toy exClient 1 3 ⟨3, 3⟩ = none ∧
    proofFor Merkle.toy exClient 1 2 ⟨3, 2⟩ = none ∧ proofFor Merkle.toy exClient 1 4 ⟨3, 2⟩ = none ∧
    (rootHashAnswer Merkle.toy exClient 1 3).isSome = true := by decide +kernel

end Verif.LeafQuery
