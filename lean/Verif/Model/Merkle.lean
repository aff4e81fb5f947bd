import Verif.Model.Basic

/-!
# Model of `client/extrinsic-utils/src/merkle_tree_utils.rs`

Byte strings are lists of `UInt8`; `H256` values are byte strings ordered lexicographically, as in Rust. `keccak_256`
is an arbitrary function `H` on byte strings (theorems assume 32 byte outputs where they need it).
-/

namespace Verif.Merkle

/-- Byte strings. -/
abbrev Bytes := List UInt8

variable (H : Bytes → Bytes)

/-- `sort_and_concatenate_pair`. Models `client/extrinsic-utils/src/merkle_tree_utils.rs:68-83`. -/
def sortConcat (l r : Bytes) : Bytes := if l ≤ r then l ++ r else r ++ l

/-- `process_nodes_in_pairs`: hash the pairs, carry an unpaired last node over.
Models `client/extrinsic-utils/src/merkle_tree_utils.rs:50-66`. -/
def pairUp : List Bytes → List Bytes
  | a :: b :: t => H (sortConcat a b) :: pairUp t
  | [a] => [a]
  | [] => []

theorem pairUp_length : ∀ l, (pairUp H l).length = (l.length + 1) / 2
  | a :: b :: t => by simp [pairUp, pairUp_length t]; omega
  | [a] => by simp [pairUp]
  | [] => by simp [pairUp]

/-- `process_level`. Models `client/extrinsic-utils/src/merkle_tree_utils.rs:36-46`. -/
def processLevel (nodes : List Bytes) : List Bytes :=
  if h : 1 < (pairUp H nodes).length then processLevel (pairUp H nodes) else pairUp H nodes
termination_by nodes.length
decreasing_by have := pairUp_length H nodes; omega

/-- `generate_tree_root`; `none` is the error. Models `client/extrinsic-utils/src/merkle_tree_utils.rs:19-34`. -/
def treeRoot (leaves : List Bytes) : Option Bytes :=
  match processLevel H (leaves.map H) with
  | [x] => some x
  | _ => none

/-- One pass of `process_nodes_in_pairs_for_path`: the tracked node and the path collected so far.
Models `client/extrinsic-utils/src/merkle_tree_utils.rs:126-152`. -/
def trackPairs (cur : Bytes) (path : List Bytes) : List Bytes → Bytes × List Bytes
  | a :: b :: t =>
    if cur = a then trackPairs (H (sortConcat a b)) (path ++ [b]) t
    else if cur = b then trackPairs (H (sortConcat a b)) (path ++ [a]) t
    else trackPairs cur path t
  | _ => (cur, path)

/-- `process_level_for_path`; returns the collected path.
Models `client/extrinsic-utils/src/merkle_tree_utils.rs:110-124`. -/
def levelPath (cur : Bytes) (nodes : List Bytes) (path : List Bytes) : List Bytes :=
  if h : 1 < (pairUp H nodes).length then
    levelPath (trackPairs H cur path nodes).1 (pairUp H nodes) (trackPairs H cur path nodes).2
  else (trackPairs H cur path nodes).2
termination_by nodes.length
decreasing_by have := pairUp_length H nodes; omega

/-- `generate_merkle_path`; `none` is the error. Models `client/extrinsic-utils/src/merkle_tree_utils.rs:87-108`. -/
def merklePath (leaf : Bytes) (leaves : List Bytes) : Option (List Bytes) :=
  if leaf = [] then none
  else if leaves = [] then none
  else some (levelPath H (H leaf) (leaves.map H) [])

end Verif.Merkle
