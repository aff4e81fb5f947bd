import Verif.Model.StakingSet

/-!
# Model of one collator candidate: `CandidateMetadata` and its two nomination lists

`pallets/parachain-staking/src/types.rs:160-1020`. Everything is for one fixed candidate; `Cand` gathers the storage its functions
touch: `CandidateInfo`, `TopNominations`, `BottomNominations` of the candidate and the common `CandidatePool`.

Simplifications: amounts and counters are natural numbers, so `saturating_add` never saturates (`u128` amounts are bounded by the
total issuance); `saturating_sub` is the truncated subtraction of `Nat`, which is exact. A nominator kicked out of a full bottom
list is only recorded here (`kicked`); the effects on its own record are in `Model/Staking.lean`. Events are not modelled.
-/

namespace Verif.Staking

/-- Constants of the pallet: `MaxTopNominationsPerCandidate`, `MaxBottomNominationsPerCandidate` and `MaxCandidates`
(`pallets/parachain-staking/src/lib.rs:186,189,226`; production values: 300, 50, 100). -/
structure Cfg where
  maxTop : Nat
  maxBottom : Nat
  maxPool : Nat

/-- `MaxNominations`: the capacity of the stored nomination vectors. Models `pallets/parachain-staking/src/types.rs:52`. -/
def vecCap : Nat := 300

/-- `Bond`. Models `pallets/parachain-staking/src/types.rs:54-58`. -/
structure Bond where
  owner : Nat
  amount : Nat
deriving DecidableEq, Repr

/-- `Nominations`. Models `pallets/parachain-staking/src/types.rs:168-173`. -/
structure Noms where
  list : List Bond
  total : Nat
deriving DecidableEq, Repr

/-- `CapacityStatus`. Models `pallets/parachain-staking/src/types.rs:251-260`. -/
inductive Capacity where
  | full | empty | some
deriving DecidableEq, Repr

/-- `CollatorStatus`. Models `pallets/parachain-staking/src/types.rs:97-105`. -/
inductive CStatus where
  | active | idle | leaving (era : Nat)
deriving DecidableEq, Repr

/-- `CandidateBondLessRequest`. Models `pallets/parachain-staking/src/types.rs:161-166`. -/
structure UnbondReq where
  amount : Nat
  due : Nat
deriving DecidableEq, Repr

/-- `CandidateMetadata`. Models `pallets/parachain-staking/src/types.rs:262-285`. -/
structure Info where
  bond : Nat
  count : Nat
  totalCounted : Nat
  lowestTop : Nat
  highestBottom : Nat
  lowestBottom : Nat
  topCap : Capacity
  bottomCap : Capacity
  request : Option UnbondReq
  status : CStatus
deriving DecidableEq, Repr

/-- The storage the functions of one candidate touch. `kicked` collects the nominations pushed out of the bottom list;
`leak` is ghost state (not in the code): the amount by which bottom nominations were decreased so far. -/
structure Cand where
  info : Info
  top : Noms
  bottom : Noms
  pool : List Bond
  kicked : List Bond
  leak : Nat
deriving DecidableEq, Repr

/-- The two errors the functions return. Models `pallets/parachain-staking/src/lib.rs:243-300`. -/
inductive CErr where
  | nominationDNE | lowestBottomWhenFull
deriving DecidableEq, Repr

/-- `try_push(..).unwrap_or_else(|_| ())`: nothing happens when the vector is full.
Models `pallets/parachain-staking/src/types.rs:197,215`. -/
def tryPush (l : List Bond) (b : Bond) : List Bond := if l.length < vecCap then l ++ [b] else l

/-- `try_insert(i, ..).unwrap_or_else(|_| ())`. Models `pallets/parachain-staking/src/types.rs:211,217`. -/
def tryInsertAt (l : List Bond) (i : Nat) (b : Bond) : List Bond := if l.length < vecCap then l.insertIdx i b else l

/-- The `while` loop that skips equal amounts. Models `pallets/parachain-staking/src/types.rs:206-214`. -/
def skipEqual (l : List Bond) (a i : Nat) : Nat :=
  if h : i < l.length then if l[i].amount = a then skipEqual l a (i + 1) else i else i
termination_by l.length - i

/-- The comparison of the binary search: `nomination.amount.cmp(&x.amount)`.
Models `pallets/parachain-staking/src/types.rs:202`. -/
def amountCmp (a : Nat) (x : Bond) : Ordering := compare a x.amount

/-- `insert_sorted_greatest_to_least`. Models `pallets/parachain-staking/src/types.rs:191-220`. -/
def insertSorted (n : Noms) (b : Bond) : Noms :=
  ⟨if (n.list.getLast?).any (fun x => decide (x.amount = b.amount)) then tryPush n.list b
   else match bsearch (amountCmp b.amount) n.list with
     | .ok i => tryInsertAt n.list (skipEqual n.list b.amount (i + 1)) b
     | .error i => tryInsertAt n.list i b,
   n.total + b.amount⟩

/-- The order of `sort_greatest_to_least`. Models `pallets/parachain-staking/src/types.rs:186`. -/
def amountGe (a b : Bond) : Bool := decide (b.amount ≤ a.amount)

/-- `sort_greatest_to_least` (stable). Models `pallets/parachain-staking/src/types.rs:185-187`. -/
def sortNoms (l : List Bond) : List Bond := stableSort amountGe l

/-- `top_capacity` with `max = MaxTop…`, `bottom_capacity` with `max = MaxBottom…`.
Models `pallets/parachain-staking/src/types.rs:221-237`. -/
def capacity (max : Nat) (l : List Bond) : Capacity :=
  if max ≤ l.length then .full else if l = [] then .empty else .some

/-- `lowest_nomination_amount`. Models `pallets/parachain-staking/src/types.rs:238-241`. -/
def lowestAmount (l : List Bond) : Nat := (l.getLast?.map Bond.amount).getD 0

/-- `highest_nomination_amount`. Models `pallets/parachain-staking/src/types.rs:242-245`. -/
def highestAmount (l : List Bond) : Nat := (l.head?.map Bond.amount).getD 0

/-- `CandidateMetadata::new`. Models `pallets/parachain-staking/src/types.rs:295-308`. -/
def Info.new (bond : Nat) : Info := ⟨bond, 0, bond, 0, 0, 0, .empty, .empty, none, .active⟩

/-- `is_active`. Models `pallets/parachain-staking/src/types.rs:309-311`. -/
def Info.isActive (i : Info) : Bool := i.status == .active

/-- `is_leaving`. Models `pallets/parachain-staking/src/types.rs:312-314`. -/
def Info.isLeaving (i : Info) : Bool :=
  match i.status with
  | .leaving _ => true
  | _ => false

/-- `update_active`: the pool entry is replaced (a failing insert is only logged).
Models `pallets/parachain-staking/src/lib.rs:1743-1753`. -/
def updateActive (cfg : Cfg) (pool : List Bond) (c total : Nat) : List Bond :=
  (setInsert Bond.owner cfg.maxPool (setRemove Bond.owner pool c).2 ⟨c, total⟩).2

/-- `reset_top_data`. Models `pallets/parachain-staking/src/types.rs:431-449`. -/
def resetTop (cfg : Cfg) (c : Nat) (s : Cand) (top : Noms) : Cand :=
  { s with
    info := { s.info with lowestTop := lowestAmount top.list, topCap := capacity cfg.maxTop top.list,
                          totalCounted := s.info.bond + top.total }
    pool := if s.info.totalCounted ≠ s.info.bond + top.total ∧ s.info.isActive = true
            then updateActive cfg s.pool c (s.info.bond + top.total) else s.pool }

/-- `reset_bottom_data`. Models `pallets/parachain-staking/src/types.rs:450-461`. -/
def resetBottom (cfg : Cfg) (s : Cand) (bottom : Noms) : Cand :=
  { s with info := { s.info with lowestBottom := lowestAmount bottom.list, highestBottom := highestAmount bottom.list,
                                 bottomCap := capacity cfg.maxBottom bottom.list } }

/-- `<TopNominations<T>>::insert` (`pallets/parachain-staking/src/types.rs:539` and others). -/
def putTop (s : Cand) (top : Noms) : Cand := { s with top := top }

/-- `<BottomNominations<T>>::insert` (`pallets/parachain-staking/src/types.rs:608` and others). -/
def putBottom (s : Cand) (bottom : Noms) : Cand := { s with bottom := bottom }

/-- `nomination_count.saturating_add(1)` (`pallets/parachain-staking/src/types.rs:537,604`). -/
def incCount (s : Cand) : Cand := { s with info := { s.info with count := s.info.count + 1 } }

/-- `nomination_count.saturating_sub(1)` (`pallets/parachain-staking/src/types.rs:685,724`). -/
def decCount (s : Cand) : Cand := { s with info := { s.info with count := s.info.count - 1 } }

/-- Removing the last entry and its amount from the total
(`pallets/parachain-staking/src/types.rs:523-526,561-569,829-834`). -/
def popLast (n : Noms) : Noms := ⟨n.list.dropLast, n.total - lowestAmount n.list⟩

/-- Removing the first entry and its amount from the total (`pallets/parachain-staking/src/types.rs:673-676,947-949`). -/
def popFirst (n : Noms) : Noms := ⟨n.list.tail, n.total - highestAmount n.list⟩

/-- The part of `add_bottom_nomination` after the kick. Models `pallets/parachain-staking/src/types.rs:601-608`. -/
def addBottomTail (cfg : Cfg) (inc : Bool) (s : Cand) (bottom : Noms) (b : Bond) : Cand :=
  putBottom (resetBottom cfg (if inc then incCount s else s) (insertSorted bottom b)) (insertSorted bottom b)

/-- `add_bottom_nomination`. A full list first loses its last entry, whose owner's record is changed by the caller of the model
(see `kicked`). Models `pallets/parachain-staking/src/types.rs:546-609`. -/
def addBottom (cfg : Cfg) (bumped : Bool) (s : Cand) (b : Bond) : Cand :=
  if s.bottom.list.length = cfg.maxBottom then
    addBottomTail cfg false { s with kicked := s.kicked ++ s.bottom.list.getLast?.toList } (popLast s.bottom) b
  else addBottomTail cfg (!bumped) s s.bottom b

/-- The part of `add_top_nomination` after making room; `less` is what it returns.
Models `pallets/parachain-staking/src/types.rs:531-540`. -/
def addTopTail (cfg : Cfg) (c : Nat) (less : Option Nat) (s : Cand) (top : Noms) (b : Bond) : Cand :=
  putTop (if less.isNone then incCount (resetTop cfg c s (insertSorted top b)) else resetTop cfg c s (insertSorted top b))
    (insertSorted top b)

/-- `add_top_nomination`: the new state and the amount of a kicked nomination.
Models `pallets/parachain-staking/src/types.rs:509-541`. -/
def addTop (cfg : Cfg) (c : Nat) (s : Cand) (b : Bond) : Cand × Option Nat :=
  if s.top.list.length = cfg.maxTop then
    let less := if s.info.bottomCap = .full then Option.some s.info.lowestBottom else none
    match s.top.list.getLast? with
    | none => (addTopTail cfg c less s (popLast s.top) b, less)
    | some t => (addTopTail cfg c less (addBottom cfg true s t) (popLast s.top) b, less)
  else (addTopTail cfg c none s s.top b, none)

/-- `add_nomination`: the new state, whether the nomination went to the top, the amount of a kicked nomination.
Models `pallets/parachain-staking/src/types.rs:466-505`. -/
def addNomination (cfg : Cfg) (c : Nat) (s : Cand) (b : Bond) : Except CErr (Cand × Bool × Option Nat) :=
  if s.info.topCap = .full then
    if s.info.lowestTop < b.amount then .ok ((addTop cfg c s b).1, true, (addTop cfg c s b).2)
    else if s.info.bottomCap = .full then
      if b.amount > s.info.lowestBottom then .ok (addBottom cfg false s b, false, Option.some s.info.lowestBottom)
      else .error .lowestBottomWhenFull
    else .ok (addBottom cfg false s b, false, none)
  else .ok ((addTop cfg c s b).1, true, none)

/-- The first nomination of an owner in a list (the closures of `filter` and `map` see the last one; owners are unique). -/
def findOwner (l : List Bond) (n : Nat) : Option Bond := l.find? (fun d => decide (d.owner = n))

/-- `filter(|d| d.owner != nominator)` (`pallets/parachain-staking/src/types.rs:657-664,706-713,811-823,927-940`). -/
def without (l : List Bond) (n : Nat) : List Bond := l.filter (fun d => decide (d.owner ≠ n))

/-- `map` that changes the nominator's own amount with `f`
(`pallets/parachain-staking/src/types.rs:776-784,848-857,963-972,1005-1014`). -/
def adjust (l : List Bond) (n : Nat) (f : Nat → Nat) : List Bond :=
  l.map (fun d => if d.owner ≠ n then d else ⟨d.owner, f d.amount⟩)

/-- The part of `rm_top_nomination` that moves the highest bottom nomination up.
Models `pallets/parachain-staking/src/types.rs:669-687`. -/
def rmTopTail (cfg : Cfg) (c : Nat) (s : Cand) (top : Noms) : Cand :=
  match s.info.bottomCap, s.bottom.list.head? with
  | .empty, _ => putTop (decCount (resetTop cfg c s top)) top
  | _, none => putTop (decCount (resetTop cfg c s top)) top
  | _, some h =>
    putTop (decCount (resetTop cfg c (putBottom (resetBottom cfg s (popFirst s.bottom)) (popFirst s.bottom)) (insertSorted top h)))
      (insertSorted top h)

/-- `rm_top_nomination` (the returned Boolean, which callers ignore, is omitted; removing from an empty list, which would panic,
does nothing). Models `pallets/parachain-staking/src/types.rs:642-690`. -/
def rmTop (cfg : Cfg) (c : Nat) (s : Cand) (n : Nat) : Except CErr Cand :=
  match findOwner s.top.list n with
  | none => .error .nominationDNE
  | some d => .ok (rmTopTail cfg c s ⟨without s.top.list n, s.top.total - d.amount⟩)

/-- `rm_bottom_nomination`. Models `pallets/parachain-staking/src/types.rs:693-727`. -/
def rmBottom (cfg : Cfg) (s : Cand) (n : Nat) : Except CErr Cand :=
  match findOwner s.bottom.list n with
  | none => .error .nominationDNE
  | some d =>
    .ok (putBottom (decCount (resetBottom cfg s ⟨without s.bottom.list n, s.bottom.total - d.amount⟩))
      ⟨without s.bottom.list n, s.bottom.total - d.amount⟩)

/-- `rm_nomination_if_exists`. Models `pallets/parachain-staking/src/types.rs:613-640`. -/
def rmNomination (cfg : Cfg) (c : Nat) (s : Cand) (n amount : Nat) : Except CErr Cand :=
  if s.info.topCap ≠ .full ∨ (amount ≥ s.info.lowestTop ∧ s.info.lowestTop ≠ s.info.highestBottom) then rmTop cfg c s n
  else if amount ≥ s.info.lowestTop ∧ s.info.lowestTop = s.info.highestBottom then
    match rmTop cfg c s n with
    | .error .nominationDNE => rmBottom cfg s n
    | r => r
  else rmBottom cfg s n

/-- `increase_top_nomination`. Models `pallets/parachain-staking/src/types.rs:760-793`. -/
def increaseTop (cfg : Cfg) (c : Nat) (s : Cand) (n more : Nat) : Except CErr (Cand × Bool) :=
  match findOwner s.top.list n with
  | none => .error .nominationDNE
  | some _ =>
    let top : Noms := ⟨sortNoms (adjust s.top.list n (· + more)), s.top.total + more⟩
    .ok (putTop (resetTop cfg c s top) top, true)

/-- The branch of `increase_bottom_nomination` that lifts the nomination into the top.
Models `pallets/parachain-staking/src/types.rs:808-844,871-872`. -/
def bumpUp (cfg : Cfg) (c : Nat) (s : Cand) (bottom : Noms) (b : Bond) : Cand :=
  match capacity cfg.maxTop s.top.list, s.top.list.getLast? with
  | .full, some t =>
    let top := insertSorted (popLast s.top) b
    let bottom' := insertSorted bottom t
    putBottom (resetBottom cfg (putTop (resetTop cfg c s top) top) bottom') bottom'
  | _, _ =>
    let top := insertSorted s.top b
    putBottom (resetBottom cfg (putTop (resetTop cfg c s top) top) bottom) bottom

/-- `increase_bottom_nomination`. Models `pallets/parachain-staking/src/types.rs:795-874`. -/
def increaseBottom (cfg : Cfg) (c : Nat) (s : Cand) (n bond more : Nat) : Except CErr (Cand × Bool) :=
  match findOwner s.bottom.list n with
  | none => .error .nominationDNE
  | some d =>
    if bond + more > s.info.lowestTop then
      .ok (bumpUp cfg c s ⟨without s.bottom.list n, s.bottom.total - bond⟩ ⟨d.owner, d.amount + more⟩, true)
    else
      let bottom : Noms := ⟨sortNoms (adjust s.bottom.list n (· + more)), s.bottom.total + more⟩
      .ok (putBottom (resetBottom cfg s bottom) bottom, false)

/-- `increase_nomination`. Models `pallets/parachain-staking/src/types.rs:729-758`. -/
def increaseNomination (cfg : Cfg) (c : Nat) (s : Cand) (n bond more : Nat) : Except CErr (Cand × Bool) :=
  if bond ≥ s.info.lowestTop ∧ s.info.lowestTop ≠ s.info.highestBottom then increaseTop cfg c s n more
  else if bond ≥ s.info.lowestTop ∧ s.info.lowestTop = s.info.highestBottom then
    match increaseTop cfg c s n more with
    | .error .nominationDNE => increaseBottom cfg c s n bond more
    | r => r
  else increaseBottom cfg c s n bond more

/-- The branch of `decrease_top_nomination` that swaps the nomination with the highest bottom one (removing from an empty bottom,
which would panic, does nothing). Models `pallets/parachain-staking/src/types.rs:924-958,984-986`. -/
def swapDown (cfg : Cfg) (c : Nat) (s : Cand) (top : Noms) (b : Bond) : Cand :=
  match s.bottom.list.head? with
  | none => s
  | some h =>
    let bottom := insertSorted (popFirst s.bottom) b
    let top' := insertSorted top h
    putTop (resetTop cfg c (putBottom (resetBottom cfg s bottom) bottom) top') top'

/-- `decrease_top_nomination`. Models `pallets/parachain-staking/src/types.rs:908-987`. -/
def decreaseTop (cfg : Cfg) (c : Nat) (s : Cand) (n bond less : Nat) : Except CErr (Cand × Bool) :=
  match findOwner s.top.list n with
  | none => .error .nominationDNE
  | some d =>
    if bond - less < s.info.highestBottom ∧ s.info.topCap = .full ∧ s.info.bottomCap ≠ .empty then
      .ok (swapDown cfg c s ⟨without s.top.list n, s.top.total - d.amount⟩ ⟨d.owner, d.amount - less⟩, false)
    else
      let top : Noms := ⟨sortNoms (adjust s.top.list n (· - less)), s.top.total - less⟩
      .ok (putTop (resetTop cfg c s top) top, true)

/-- `decrease_bottom_nomination`: the total of the bottom nominations is not changed.
Models `pallets/parachain-staking/src/types.rs:989-1020`. -/
def decreaseBottom (cfg : Cfg) (s : Cand) (n less : Nat) : Except CErr (Cand × Bool) :=
  match findOwner s.bottom.list n with
  | none => .error .nominationDNE
  | some _ =>
    let bottom : Noms := ⟨sortNoms (adjust s.bottom.list n (· - less)), s.bottom.total⟩
    .ok ({ putBottom (resetBottom cfg s bottom) bottom with leak := s.leak + less }, false)

/-- `decrease_nomination`. Models `pallets/parachain-staking/src/types.rs:876-906`. -/
def decreaseNomination (cfg : Cfg) (c : Nat) (s : Cand) (n bond less : Nat) : Except CErr (Cand × Bool) :=
  if bond ≥ s.info.lowestTop ∧ s.info.lowestTop ≠ s.info.highestBottom then decreaseTop cfg c s n bond less
  else if bond ≥ s.info.lowestTop ∧ s.info.lowestTop = s.info.highestBottom then
    match decreaseTop cfg c s n bond less with
    | .error .nominationDNE => decreaseBottom cfg s n less
    | r => r
  else decreaseBottom cfg s n less

/-- `schedule_leave` (status only). Models `pallets/parachain-staking/src/types.rs:315-321`. -/
def Info.scheduleLeave (i : Info) (era delay : Nat) : Option Info :=
  if i.isLeaving then none else some { i with status := .leaving (era + delay) }

/-- `can_leave`. Models `pallets/parachain-staking/src/types.rs:322-329`. -/
def Info.canLeave (i : Info) (era : Nat) : Bool :=
  match i.status with
  | .leaving w => decide (w ≤ era)
  | _ => false

/-- `bond_extra` on the candidate's record; the balance check is the caller's.
Models `pallets/parachain-staking/src/types.rs:336-360`. -/
def Info.bondExtra (i : Info) (more : Nat) : Info :=
  { i with bond := i.bond + more, totalCounted := i.totalCounted + more }

/-- `schedule_unbond`. Models `pallets/parachain-staking/src/types.rs:363-378`. -/
def Info.scheduleUnbond (i : Info) (era delay minStake less : Nat) : Option Info :=
  if i.request = none ∧ i.bond > less ∧ i.bond - less ≥ minStake then
    some { i with request := some ⟨less, era + delay⟩ }
  else none

/-- `execute_unbond` on the candidate's record; returns the amount too.
Models `pallets/parachain-staking/src/types.rs:381-415`. -/
def Info.executeUnbond (i : Info) (era : Nat) : Option (Info × Nat) :=
  match i.request with
  | none => none
  | some r =>
    if r.due ≤ era then
      some ({ i with bond := i.bond - r.amount, totalCounted := i.totalCounted - r.amount, request := none }, r.amount)
    else none

/-- `cancel_unbond`. Models `pallets/parachain-staking/src/types.rs:417-430`. -/
def Info.cancelUnbond (i : Info) : Option Info :=
  match i.request with
  | none => none
  | some _ => some { i with request := none }

end Verif.Staking
