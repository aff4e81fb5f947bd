import Verif.Model.SummaryWorker

/-!
# Proving that a transaction is in a summary

The part of `client/extrinsic-utils` with which a client finds a transaction of a summary's range and builds its Merkle path, on the client of
`Model/SummaryWorker.lean` and the tree of `Model/Merkle.lean`.
-/

namespace Verif.LeafQuery

open Verif.SummaryWorker

/-- Byte strings. -/
abbrev Bytes := List UInt8

/-- `LowerLeafFilter`. Models `client/extrinsic-utils/src/extrinsic_utils.rs:18-24`. -/
structure Filter where
  block : Nat
  index : Nat

/-- `extrinsic_matches_filter`. Models `client/extrinsic-utils/src/extrinsic_utils.rs:158-170`. -/
def isMatch (index block : Nat) : Option Filter → Bool
  | some f => f.index == index && f.block == block
  | none => false

/-- The loop over a block's extrinsics, from the given index, with the leaf found so far.
Models `client/extrinsic-utils/src/extrinsic_utils.rs:75-84`. -/
def scan (block : Nat) (f : Option Filter) : Nat → List Bytes → Option Bytes → Option Bytes
  | _, [], found => found
  | index, x :: xs, found => scan block f (index + 1) xs (if isMatch index block f then some x else found)

/-- `process_extrinsics_in_block_and_check_if_filter_target_exists`. Models `client/extrinsic-utils/src/extrinsic_utils.rs:62-87`. -/
def searchBlock (c : Client) (n : Nat) (f : Option Filter) : Option (Option Bytes × List Bytes) :=
  match blockLeaves c n with
  | none => none
  | some xs => some (scan n f 0 xs none, xs)

/-- `get_filter_for_block`. Models `client/extrinsic-utils/src/extrinsic_utils.rs:150-156`. -/
def filterFor (n : Nat) (f : Filter) : Option Filter := if f.block = n then some f else none

/-- The later find, if there is one: `if leaf.is_some() { filtered_leaf = leaf }`. -/
def later (found leaf : Option Bytes) : Option Bytes :=
  match leaf with
  | some x => some x
  | none => found

/-- The loop of `get_extrinsics_and_check_if_filter_target_exists` from `first` over `count` blocks, with what was found so far.
Models `client/extrinsic-utils/src/extrinsic_utils.rs:37-52`. -/
def searchFrom (c : Client) (f : Filter) (first : Nat) : Nat → Option Bytes → List Bytes → Option (Option Bytes × List Bytes)
  | 0, found, leaves => some (found, leaves)
  | count + 1, found, leaves =>
    match searchBlock c first (filterFor first f) with
    | none => none
    | some r => searchFrom c f (first + 1) count (later found r.1) (leaves ++ r.2)

/-- `get_extrinsics_and_check_if_filter_target_exists`. Models `client/extrinsic-utils/src/extrinsic_utils.rs:28-58`. -/
def search (c : Client) (fromBlock toBlock : Nat) (f : Filter) : Option (Option Bytes × List Bytes) :=
  searchFrom c f fromBlock (toBlock + 1 - fromBlock) none []

/-- A leaf and its path, `MerklePathData`, for the transaction at a position. The two calls are the ones the crate offers for this; the crate has no function that combines them.
Models `client/extrinsic-utils/src/merkle_tree_utils.rs:11-16, 86-108`. -/
def proofFor (H : Bytes → Bytes) (c : Client) (fromBlock toBlock : Nat) (f : Filter) : Option (Bytes × List Bytes) :=
  match search c fromBlock toBlock f with
  | some (some leaf, leaves) => (Merkle.merklePath H leaf leaves).map (leaf, ·)
  | _ => none

end Verif.LeafQuery
