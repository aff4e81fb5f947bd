import Verif.Model.Basic

/-!
# Model of the ordered sets of `pallets/parachain-staking`

Elements are compared through a key (`Bond`s are ordered and equal by owner only, `types.rs:75-93`); keys are natural numbers
(a 32 byte account id read as a big-endian number has the same order). `binary_search_by` and `Vec::dedup` are the standard
library functions the project calls; the loop below is the bisection of `core::slice`.
-/

namespace Verif.Staking

/-- The loop of `<[T]>::binary_search_by(f)`: `f x` says where `x` is relative to the target. `.ok i`: a match at `i`;
`.error i`: no match, `i` is where it belongs. Standard library code called by
`pallets/parachain-staking/src/set.rs:54,66,77,121,130,141` and `pallets/parachain-staking/src/types.rs:202`. -/
def bsearchLoop {α : Type _} (f : α → Ordering) (l : List α) (left right : Nat) : Except Nat Nat :=
  if h : left < right then
    match l[left + (right - left) / 2]? with
    | none => .error left
    | some x =>
      match f x with
      | .lt => bsearchLoop f l (left + (right - left) / 2 + 1) right
      | .gt => bsearchLoop f l left (left + (right - left) / 2)
      | .eq => .ok (left + (right - left) / 2)
  else .error left
termination_by right - left

/-- `binary_search_by`, same sources as `bsearchLoop` (`pallets/parachain-staking/src/set.rs:121`). -/
def bsearch {α : Type _} (f : α → Ordering) (l : List α) : Except Nat Nat := bsearchLoop f l 0 l.length

/-- `Ord::cmp` of an element with the key searched for (`pallets/parachain-staking/src/types.rs:75-79`). -/
def keyCmp {α : Type _} (key : α → Nat) (k : Nat) (x : α) : Ordering := compare (key x) k

/-- What an insertion returns: `Ok(true)`, `Ok(false)` or `Err(())`. Models the result type of
`pallets/parachain-staking/src/set.rs:120`. -/
inductive Ins where
  | added | present | full
deriving DecidableEq, Repr

/-- `BoundedOrderedSet::try_insert` (and `OrderedSet::insert`, `set.rs:53-61`, when the list never reaches `cap`).
Models `pallets/parachain-staking/src/set.rs:118-125`. -/
def setInsert {α : Type _} (key : α → Nat) (cap : Nat) (l : List α) (v : α) : Ins × List α :=
  match bsearch (keyCmp key (key v)) l with
  | .ok _ => (.present, l)
  | .error loc => if l.length < cap then (.added, l.insertIdx loc v) else (.full, l)

/-- `BoundedOrderedSet::remove`; the argument is a key because only the key is compared.
Models `pallets/parachain-staking/src/set.rs:127-137` (and `63-73`). -/
def setRemove {α : Type _} (key : α → Nat) (l : List α) (k : Nat) : Bool × List α :=
  match bsearch (keyCmp key k) l with
  | .ok loc => (true, l.eraseIdx loc)
  | .error _ => (false, l)

/-- `BoundedOrderedSet::contains`. Models `pallets/parachain-staking/src/set.rs:139-142` (and `75-78`). -/
def setContains {α : Type _} (key : α → Nat) (l : List α) (k : Nat) : Bool :=
  match bsearch (keyCmp key k) l with
  | .ok _ => true
  | .error _ => false

/-- `Vec::dedup`: of neighbouring elements with equal keys only the first is kept. Standard library function called at
`pallets/parachain-staking/src/set.rs:111` (and `43`). -/
def dedupFrom {α : Type _} (key : α → Nat) : List α → List α
  | [] => []
  | x :: l =>
    match dedupFrom key l with
    | [] => [x]
    | y :: r => if key x = key y then x :: r else x :: y :: r

/-- Puts `x` before the first element it is not after. Part of `stableSort`. -/
def sortInsert {α : Type _} (le : α → α → Bool) (x : α) : List α → List α
  | [] => [x]
  | y :: l => if le x y then x :: y :: l else y :: sortInsert le x l

/-- A stable sort (`<[T]>::sort`, `sort_by`; the result of a stable sort does not depend on the algorithm). Standard library
function called at `pallets/parachain-staking/src/set.rs:110` and `pallets/parachain-staking/src/types.rs:186`. -/
def stableSort {α : Type _} (le : α → α → Bool) : List α → List α
  | [] => []
  | x :: l => sortInsert le x (stableSort le l)

/-- The order used by `sort()` (`pallets/parachain-staking/src/set.rs:110`). -/
def keyLe {α : Type _} (key : α → Nat) (a b : α) : Bool := decide (key a ≤ key b)

/-- `BoundedOrderedSet::from`: stable sort, then `dedup`. Models `pallets/parachain-staking/src/set.rs:107-115` (and `39-45`). -/
def setFrom {α : Type _} (key : α → Nat) (v : List α) : List α := dedupFrom key (stableSort (keyLe key) v)

/-- A call on a set (`contains` included, it only observes). Models `pallets/parachain-staking/src/set.rs:118-142`. -/
inductive SetOp (α : Type _) where
  | insert (v : α)
  | remove (k : Nat)
  | contains (k : Nat)

/-- What a call on a set returns. -/
inductive SetOut where
  | ins (r : Ins)
  | bool (b : Bool)
deriving DecidableEq, Repr

/-- One call. Models `pallets/parachain-staking/src/set.rs:118-142`. -/
def setStep {α : Type _} (key : α → Nat) (cap : Nat) (l : List α) : SetOp α → SetOut × List α
  | .insert v => (.ins (setInsert key cap l v).1, (setInsert key cap l v).2)
  | .remove k => (.bool (setRemove key l k).1, (setRemove key l k).2)
  | .contains k => (.bool (setContains key l k), l)

/-- A sequence of calls, with everything they returned. -/
def setRun {α : Type _} (key : α → Nat) (cap : Nat) (l : List α) : List (SetOp α) → List SetOut × List α
  | [] => ([], l)
  | op :: ops =>
    ((setStep key cap l op).1 :: (setRun key cap (setStep key cap l op).2 ops).1,
     (setRun key cap (setStep key cap l op).2 ops).2)

end Verif.Staking
