import Verif.Model.StakingCandidate

/-!
# Model of the staking ledger: candidates, nominators and scheduled requests

All calls of `pallets/parachain-staking` that move stake or schedule, cancel and execute unbonding. A call is a partial function on
the storage: `none` is an error (or a panic), whose writes are rolled back because extrinsics are transactional.

Simplifications: the signed (`proof`) variants of the calls run the same bodies, their signature and nonce part is modelled in
`Model/Proxy.lean` and `Model/Encoding.lean`; events and weights are left out; a balance lock of amount zero is the absence of the
lock; `free` is an account's free balance and is changed by the environment only; amounts are natural numbers (saturation of the
`u128` additions is out of reach: amounts are bounded by the total issuance).
-/

namespace Verif.Staking

/-- Constants: the two list sizes and the pool size, `MaxNominationsPerNominator` (also the capacity of a collator's list of
scheduled requests), `MinNominationPerCollator`, and `is_staking_enabled()`.
Models `pallets/parachain-staking/src/lib.rs:76-82,186-200,517-522`; production values: 100, 1, disabled
(`runtime/avn/src/configs/mod.rs:297`). -/
structure Par where
  cfg : Cfg
  maxPer : Nat
  minPer : Nat
  enabled : Bool

/-- What is stored about a candidate: `CandidateInfo`, `TopNominations`, `BottomNominations`; `leak` is ghost state, see `Cand`.
Models `pallets/parachain-staking/src/lib.rs:505-560`. -/
structure CRec where
  info : Info
  top : Noms
  bottom : Noms
  leak : Nat
deriving DecidableEq, Repr

/-- `Nominator` (its `id` is the key it is stored under). Models `pallets/parachain-staking/src/types.rs:1031-1042`. -/
structure Nomr where
  noms : List Bond
  total : Nat
  less : Nat
deriving DecidableEq, Repr

/-- `ScheduledRequest`; `revoke` distinguishes `NominationAction::Revoke` from `Decrease`.
Models `pallets/parachain-staking/src/nomination_requests.rs:20-57`. -/
structure Req where
  nominator : Nat
  revoke : Bool
  amount : Nat
  due : Nat
deriving DecidableEq, Repr

/-- The storage. `nlock` and `clock` are the balance locks `NOMINATOR_LOCK_ID` and `COLLATOR_LOCK_ID`; `total` is `Total`; `era` is
`Era.current`. Models `pallets/parachain-staking/src/lib.rs:466-600`. -/
structure St where
  cands : Nat → Option CRec
  noms : Nat → Option Nomr
  reqs : Nat → List Req
  pool : List Bond
  nlock : Nat → Nat
  clock : Nat → Nat
  total : Nat
  era : Nat
  delay : Nat
  minTotal : Nat
  minCollator : Nat
  free : Nat → Nat

/-- Before genesis candidates join. Models `pallets/parachain-staking/src/lib.rs:695-787` (the genesis candidates and nominations
are ordinary calls made on this state). -/
def St.init (delay minTotal minCollator : Nat) (free : Nat → Nat) : St :=
  ⟨fun _ => none, fun _ => none, fun _ => [], [], fun _ => 0, fun _ => 0, 0, 1, delay, minTotal, minCollator, free⟩

/-- The candidate's storage as the functions of `Model/StakingCandidate.lean` see it. -/
def St.cand? (s : St) (c : Nat) : Option Cand :=
  (s.cands c).map (fun r => ⟨r.info, r.top, r.bottom, s.pool, [], r.leak⟩)

/-- Writing it back. -/
def St.putCand (s : St) (c : Nat) (k : Cand) : St :=
  { s with cands := upd s.cands c (some ⟨k.info, k.top, k.bottom, k.leak⟩), pool := k.pool }

/-- `get_nominator_stakable_free_balance`. Models `pallets/parachain-staking/src/lib.rs:1727-1733`. -/
def St.nomFree (s : St) (n : Nat) : Nat := s.free n - ((s.noms n).map Nomr.total).getD 0

/-- `get_collator_stakable_free_balance`. Models `pallets/parachain-staking/src/lib.rs:1735-1741`. -/
def St.candFree (s : St) (c : Nat) : Nat := s.free c - ((s.cands c).map (fun r => r.info.bond)).getD 0

/-! ### The nominator's record -/

/-- The loop of `rm_nomination` that builds the set again. Models `pallets/parachain-staking/src/types.rs:1149-1158`. -/
def rebuildSet (l : List Bond) : List Bond := l.foldl (fun acc x => (setInsert Bond.owner vecCap acc x).2) []

/-- `rm_nomination` on the record (the lock is set by the caller of the model to the new total); `none`: not found.
Models `pallets/parachain-staking/src/types.rs:1142-1168`. -/
def Nomr.rm (r : Nomr) (c : Nat) : Option Nomr :=
  match findOwner r.noms c with
  | none => none
  | some b => some { r with noms := rebuildSet (without r.noms c), total := r.total - b.amount }

/-- `add_nomination`; `none`: already nominated (or the set is full, where the code would panic).
Models `pallets/parachain-staking/src/types.rs:1130-1138`. -/
def Nomr.add (r : Nomr) (b : Bond) : Option Nomr :=
  match setInsert Bond.owner vecCap r.noms b with
  | (.added, l) => some { r with noms := l, total := r.total + b.amount }
  | _ => none

/-- `Nominator::new`. Models `pallets/parachain-staking/src/types.rs:1076-1086`. -/
def Nomr.new (b : Bond) : Nomr := ⟨setFrom Bond.owner [b], b.amount, 0⟩

/-! ### Scheduled requests -/

/-- The predicate `req.nominator == nominator`. -/
def Req.by (n : Nat) (q : Req) : Bool := decide (q.nominator = n)

/-- The nominator's request towards a collator, `iter().position(..)` and indexing
(`pallets/parachain-staking/src/nomination_requests.rs:197,213,500`). -/
def findReq (l : List Req) (n : Nat) : Option Req := l.find? (Req.by n)

/-- `remove(request_idx)` (`pallets/parachain-staking/src/nomination_requests.rs:199,240,270,504`). -/
def dropReq (l : List Req) (n : Nat) : List Req := l.eraseP (Req.by n)

/-- Storing a collator's requests. -/
def St.putReqs (s : St) (c : Nat) (l : List Req) : St := { s with reqs := upd s.reqs c l }

/-- `nomination_remove_request_with_state`: the list and the nominator's `less_total` afterwards.
Models `pallets/parachain-staking/src/nomination_requests.rs:494-510`. -/
def removeRequest (s : St) (c n : Nat) (r : Nomr) : St × Nomr :=
  match findReq (s.reqs c) n with
  | none => (s, r)
  | some q => (s.putReqs c (dropReq (s.reqs c) n), { r with less := r.less - q.amount })

/-- Storing a nominator's record. -/
def St.putNom (s : St) (n : Nat) (o : Option Nomr) : St := { s with noms := upd s.noms n o }

/-- Setting (or, with zero, removing) the nominator's lock (`pallets/parachain-staking/src/types.rs:1258-1267`). -/
def St.lockNom (s : St) (n v : Nat) : St := { s with nlock := upd s.nlock n v }

/-- What `add_bottom_nomination` does to the record of a nominator it kicks (a missing record would panic; nothing happens here).
Models `pallets/parachain-staking/src/types.rs:573-596`. -/
def kickOne (s : St) (c : Nat) (b : Bond) : St :=
  match s.noms b.owner with
  | none => s
  | some r =>
    match r.rm c with
    | none =>
      let (s2, r2) := removeRequest s c b.owner r
      s2.putNom b.owner (if r.noms.length = 1 then none else some r2)
    | some r1 =>
      let (s2, r2) := removeRequest (s.lockNom b.owner r1.total) c b.owner r1
      s2.putNom b.owner (if r.noms.length = 1 then none else some r2)

/-! ### Nominating -/

/-- The first half of `call_nominate`: the nominator's new record.
Models `pallets/parachain-staking/src/calls.rs:17-42`. -/
def nominateRecord (P : Par) (s : St) (n c amount hintN : Nat) : Option Nomr :=
  match s.noms n with
  | some r =>
    if amount < P.minPer then none
    else if hintN < r.noms.length then none
    else if P.maxPer ≤ r.noms.length then none
    else r.add ⟨c, amount⟩
  | none =>
    if amount < s.minTotal then none
    else if (s.cands n).isSome then none
    else some (Nomr.new ⟨c, amount⟩)

/-- `call_nominate`. Models `pallets/parachain-staking/src/calls.rs:4-72` (`adjust_bond_lock`: `types.rs:1233-1269`). -/
def nominate (P : Par) (s : St) (n c amount hintC hintN : Nat) : Option St :=
  if s.nomFree n < amount then none
  else match nominateRecord P s n c amount hintN with
  | none => none
  | some r =>
    match s.cand? c with
    | none => none
    | some k =>
      if hintC < k.info.count then none
      else match addNomination P.cfg c k ⟨n, amount⟩ with
      | .error _ => none
      | .ok (k', _, less) =>
        let s1 := k'.kicked.foldl (fun s b => kickOne s c b) (s.putCand c k')
        if s1.nomFree n < amount ∨ r.total < amount then none
        else some { ((s1.lockNom n r.total).putNom n (some r)) with total := s1.total + (amount - less.getD 0) }

/-- The extrinsic `nominate`. Models `pallets/parachain-staking/src/lib.rs:1219-1235`. -/
def nominateCall (P : Par) (s : St) (n c amount hintC hintN : Nat) : Option St :=
  if P.enabled then nominate P s n c amount hintC hintN else none

/-- `nomination_request_revoke_exists`. Models `pallets/parachain-staking/src/nomination_requests.rs:521-528`. -/
def revokePending (s : St) (c n : Nat) : Bool := (s.reqs c).any (fun q => Req.by n q && q.revoke)

/-- `call_bond_extra` with `Nominator::increase_nomination`.
Models `pallets/parachain-staking/src/calls.rs:74-88` and `pallets/parachain-staking/src/types.rs:1170-1221`. -/
def bondExtra (P : Par) (s : St) (n c more : Nat) : Option St :=
  if revokePending s c n then none
  else match s.noms n with
  | none => none
  | some r =>
    match findOwner r.noms c with
    | none => none
    | some b =>
      if s.nomFree n < more ∨ r.total + more < more then none
      else match s.cand? c with
      | none => none
      | some k =>
        match increaseNomination P.cfg c k n b.amount more with
        | .error _ => none
        | .ok (k', _) =>
          let k'' := if k'.info.isActive = true ∧ k.info.totalCounted ≠ k'.info.totalCounted
                     then { k' with pool := updateActive P.cfg k'.pool c k'.info.totalCounted } else k'
          some { ((((s.lockNom n (r.total + more)).putCand c k'').putNom n
            (some { r with noms := adjust r.noms c (· + more), total := r.total + more }))) with total := s.total + more }

/-- The extrinsic `bond_extra`. Models `pallets/parachain-staking/src/lib.rs:1422-1432`. -/
def bondExtraCall (P : Par) (s : St) (n c more : Nat) : Option St :=
  if P.enabled then bondExtra P s n c more else none

/-! ### Scheduling, cancelling and executing requests -/

/-- `nomination_schedule_revoke`: succeeds without recording anything when the collator's list is full.
Models `pallets/parachain-staking/src/nomination_requests.rs:76-114`. -/
def scheduleRevoke (P : Par) (s : St) (n c : Nat) : Option St :=
  match s.noms n with
  | none => none
  | some r =>
    if (s.reqs c).any (Req.by n) then none
    else match findOwner r.noms c with
    | none => none
    | some b =>
      if (s.reqs c).length < P.maxPer then
        some ((s.putReqs c (s.reqs c ++ [⟨n, true, b.amount, s.era + s.delay⟩])).putNom n
          (some { r with less := r.less + b.amount }))
      else some s

/-- `nomination_schedule_bond_decrease`; like the above when the list is full.
Models `pallets/parachain-staking/src/nomination_requests.rs:117-164`. -/
def scheduleDecrease (P : Par) (s : St) (n c less : Nat) : Option St :=
  match s.noms n with
  | none => none
  | some r =>
    if (s.reqs c).any (Req.by n) then none
    else match findOwner r.noms c with
    | none => none
    | some b =>
      if b.amount ≤ less then none
      else if b.amount - less < P.minPer then none
      else if r.total - r.less - s.minTotal < less then none
      else if (s.reqs c).length < P.maxPer then
        some ((s.putReqs c (s.reqs c ++ [⟨n, false, less, s.era + s.delay⟩])).putNom n
          (some { r with less := r.less + less }))
      else some s

/-- `nomination_cancel_request`. Models `pallets/parachain-staking/src/nomination_requests.rs:167-203`. -/
def cancelRequest (s : St) (n c : Nat) : Option St :=
  match s.noms n with
  | none => none
  | some r =>
    match findReq (s.reqs c) n with
    | none => none
    | some q =>
      some ((s.putReqs c (dropReq (s.reqs c) n)).putNom n (some { r with less := r.less - q.amount }))

/-- `nominator_leaves_candidate`. Models `pallets/parachain-staking/src/lib.rs:1785-1803`. -/
def leavesCandidate (P : Par) (s : St) (c n amount : Nat) : Option St :=
  match s.cand? c with
  | none => none
  | some k =>
    match rmNomination P.cfg c k n amount with
    | .error _ => none
    | .ok k' => some { (s.putCand c k') with total := s.total - amount }

/-- The `Revoke` branch of `nomination_execute_scheduled_request`.
Models `pallets/parachain-staking/src/nomination_requests.rs:222-264`. -/
def executeRevoke (P : Par) (s : St) (n c : Nat) (r : Nomr) (q : Req) : Option St :=
  if r.noms.length ≠ 1 ∧ r.total - s.minTotal < q.amount then none
  else
    let r0 : Nomr := { r with less := r.less - q.amount }
    let r1 := (r0.rm c).getD r0
    match leavesCandidate P (s.lockNom n r1.total) c n q.amount with
    | none => none
    | some s2 =>
      some ((s2.putReqs c (dropReq (s.reqs c) n)).putNom n (if r.noms.length = 1 then none else some r1))

/-- The `Decrease` branch. Models `pallets/parachain-staking/src/nomination_requests.rs:265-320`. -/
def executeDecrease (P : Par) (s : St) (n c : Nat) (r : Nomr) (q : Req) : Option St :=
  match findOwner r.noms c with
  | none => none
  | some b =>
    if b.amount ≤ q.amount then none
    else match s.cand? c with
    | none => none
    | some k =>
      if r.total - q.amount < P.minPer then none
      else if r.total - q.amount < s.minTotal then none
      else match decreaseNomination P.cfg c k n b.amount q.amount with
      | .error _ => none
      | .ok (k', _) =>
        some ({ ((s.lockNom n (r.total - q.amount)).putCand c k') with
          reqs := upd s.reqs c (dropReq (s.reqs c) n), total := s.total - q.amount }.putNom n
          (some { noms := adjust r.noms c (· - q.amount), total := r.total - q.amount, less := r.less - q.amount }))

/-- `nomination_execute_scheduled_request`. Models `pallets/parachain-staking/src/nomination_requests.rs:206-322`. -/
def executeRequest (P : Par) (s : St) (n c : Nat) : Option St :=
  match s.noms n with
  | none => none
  | some r =>
    match findReq (s.reqs c) n with
    | none => none
    | some q =>
      if s.era < q.due then none
      else if q.revoke then executeRevoke P s n c r q
      else executeDecrease P s n c r q

/-- One round of the loop of `signed_execute_nomination_request`. Models `pallets/parachain-staking/src/lib.rs:1597-1611`. -/
def executeDueStep (P : Par) (n : Nat) (o : Option St) (b : Bond) : Option St :=
  match o with
  | none => none
  | some s =>
    match findReq (s.reqs b.owner) n with
    | none => none
    | some q => if q.due ≤ s.era then executeRequest P s n b.owner else some s

/-- The body of `signed_execute_nomination_request`. Models `pallets/parachain-staking/src/lib.rs:1595-1611`. -/
def executeDue (P : Par) (s : St) (n : Nat) : Option St :=
  match s.noms n with
  | none => none
  | some r => r.noms.foldl (executeDueStep P n) (some s)

/-- What the loops over a nominator's nominations carry: the requests, `less_total` and the counter of existing revokes. The code
collects the changed lists and writes them after the loop; collators are distinct, so writing at once is the same. -/
structure Sweep where
  reqs : Nat → List Req
  less : Nat
  count : Nat

/-- `cancel_request_with_state` inside a loop. Models `pallets/parachain-staking/src/nomination_requests.rs:189-203`. -/
def Sweep.cancel (w : Sweep) (n c : Nat) : Sweep × Option Req :=
  match findReq (w.reqs c) n with
  | none => (w, none)
  | some q => ({ w with reqs := upd w.reqs c (dropReq (w.reqs c) n), less := w.less - q.amount }, some q)

/-- One round of `nominator_schedule_revoke_all`: an existing revoke is kept, anything else replaced; a full list is left alone
without an error. Models `pallets/parachain-staking/src/nomination_requests.rs:336-366`. -/
def revokeAllStep (P : Par) (n due : Nat) (w : Sweep) (b : Bond) : Sweep :=
  let (w1, q?) := w.cancel n b.owner
  let old := (q?.filter Req.revoke)
  let q := old.getD ⟨n, true, b.amount, due⟩
  let count := if old.isSome then w1.count + 1 else w1.count
  if (w1.reqs b.owner).length < P.maxPer then
    ⟨upd w1.reqs b.owner (w1.reqs b.owner ++ [q]), w1.less + b.amount, count⟩
  else ⟨w.reqs, w1.less, count⟩

/-- `nominator_schedule_revoke_all`. Models `pallets/parachain-staking/src/nomination_requests.rs:326-386`. -/
def revokeAll (P : Par) (s : St) (n : Nat) : Option St :=
  match s.noms n with
  | none => none
  | some r =>
    let w := r.noms.foldl (revokeAllStep P n (s.era + s.delay)) ⟨s.reqs, r.less, 0⟩
    if w.count = r.noms.length then none
    else some ({ s with reqs := w.reqs }.putNom n (some { r with less := w.less }))

/-- The request looked for by the two functions below: the nominator's, and a revoke
(`pallets/parachain-staking/src/nomination_requests.rs:399-405,446-452`). -/
def hasRevoke (reqs : Nat → List Req) (n : Nat) (b : Bond) : Bool := (reqs b.owner).any (fun q => Req.by n q && q.revoke)

/-- `nominator_cancel_scheduled_revoke_all`. Models `pallets/parachain-staking/src/nomination_requests.rs:389-425`. -/
def cancelRevokeAll (s : St) (n : Nat) : Option St :=
  match s.noms n with
  | none => none
  | some r =>
    if r.noms.all (hasRevoke s.reqs n) then
      let w := r.noms.foldl (fun w b => (w.cancel n b.owner).1) (⟨s.reqs, r.less, 0⟩ : Sweep)
      some ({ s with reqs := w.reqs }.putNom n (some { r with less := w.less }))
    else none

/-- Every nomination has a revoke that is due (the first request of the nominator that is a revoke is looked at; a nominator has
at most one). Models `pallets/parachain-staking/src/nomination_requests.rs:443-457`. -/
def revokeDue (reqs : Nat → List Req) (era n : Nat) (b : Bond) : Bool :=
  match (reqs b.owner).find? (fun q => Req.by n q && q.revoke) with
  | none => false
  | some q => decide (q.due ≤ era)

/-- One round of the second loop: leaving the candidate (an error is only logged) and dropping the request.
Models `pallets/parachain-staking/src/nomination_requests.rs:461-477`. -/
def leaveAllStep (P : Par) (n : Nat) (s : St) (b : Bond) : St :=
  let s1 := (leavesCandidate P s b.owner n b.amount).getD s
  { s1 with reqs := upd s1.reqs b.owner ((s1.reqs b.owner).eraseP (fun q => Req.by n q && q.revoke)) }

/-- `nominator_execute_scheduled_revoke_all`. Models `pallets/parachain-staking/src/nomination_requests.rs:430-490`. -/
def executeRevokeAll (P : Par) (s : St) (n hint : Nat) : Option St :=
  match s.noms n with
  | none => none
  | some r =>
    if hint < r.noms.length then none
    else if r.noms.all (revokeDue s.reqs s.era n) then
      some (((r.noms.foldl (leaveAllStep P n) s).lockNom n 0).putNom n none)
    else none

/-! ### Candidates -/

/-- `join_candidates`; `registered` is `CollatorSessionRegistration::is_registered`.
Models `pallets/parachain-staking/src/lib.rs:840-887`. -/
def joinCandidates (P : Par) (s : St) (c bond hint : Nat) (registered : Bool) : Option St :=
  if (s.cands c).isSome ∨ (s.noms c).isSome ∨ bond < s.minCollator ∨ registered = false ∨ hint < s.pool.length then none
  else match setInsert Bond.owner P.cfg.maxPool s.pool ⟨c, bond⟩ with
  | (.added, pool) =>
    if s.candFree c < bond then none
    else some { s with
      cands := upd s.cands c (some ⟨Info.new bond, ⟨[], 0⟩, ⟨[], 0⟩, 0⟩), pool := pool, clock := upd s.clock c bond,
      total := s.total + bond }
  | _ => none

/-- Writing only a candidate's `CandidateInfo`. -/
def St.putInfo (s : St) (c : Nat) (r : CRec) (i : Info) : St := { s with cands := upd s.cands c (some { r with info := i }) }

/-- `schedule_leave_candidates`. Models `pallets/parachain-staking/src/lib.rs:889-915`. -/
def scheduleLeave (s : St) (c hint : Nat) : Option St :=
  match s.cands c with
  | none => none
  | some r =>
    match r.info.scheduleLeave s.era s.delay with
    | none => none
    | some i =>
      if hint < s.pool.length then none
      else some { (s.putInfo c r i) with pool := (setRemove Bond.owner s.pool c).2 }

/-- The closure `return_stake`; a missing nominator record panics.
Models `pallets/parachain-staking/src/lib.rs:937-969`. -/
def returnStake (c : Nat) (o : Option St) (b : Bond) : Option St :=
  match o with
  | none => none
  | some s =>
    match s.noms b.owner with
    | none => none
    | some r =>
      match r.rm c with
      | none => some (s.lockNom b.owner 0)
      | some r1 =>
        let (s2, r2) := removeRequest (s.lockNom b.owner r1.total) c b.owner r1
        if r1.total = 0 then some ((s2.putNom b.owner none).lockNom b.owner 0)
        else some (s2.putNom b.owner (some r2))

/-- `execute_leave_candidates`. Models `pallets/parachain-staking/src/lib.rs:921-995`. -/
def executeLeave (s : St) (c hint : Nat) : Option St :=
  match s.cands c with
  | none => none
  | some r =>
    if hint < r.info.count then none
    else if r.info.canLeave s.era = false then none
    else match (r.top.list ++ r.bottom.list).foldl (returnStake c) (some s) with
    | none => none
    | some s1 =>
      some { s1 with cands := upd s1.cands c none, reqs := upd s1.reqs c [], clock := upd s1.clock c 0,
                     total := s1.total - (r.info.bond + r.top.total + r.bottom.total) }

/-- `cancel_leave_candidates`. Models `pallets/parachain-staking/src/lib.rs:1002-1030`. -/
def cancelLeave (P : Par) (s : St) (c hint : Nat) : Option St :=
  match s.cands c with
  | none => none
  | some r =>
    if r.info.isLeaving = false ∨ hint < s.pool.length then none
    else match setInsert Bond.owner P.cfg.maxPool s.pool ⟨c, r.info.totalCounted⟩ with
    | (.added, pool) => some { (s.putInfo c r { r.info with status := .active }) with pool := pool }
    | _ => none

/-- `go_offline`. Models `pallets/parachain-staking/src/lib.rs:1035-1047`. -/
def goOffline (s : St) (c : Nat) : Option St :=
  match s.cands c with
  | none => none
  | some r =>
    if r.info.isActive = false then none
    else some { (s.putInfo c r { r.info with status := .idle }) with pool := (setRemove Bond.owner s.pool c).2 }

/-- `go_online`. Models `pallets/parachain-staking/src/lib.rs:1052-1068`. -/
def goOnline (P : Par) (s : St) (c : Nat) : Option St :=
  match s.cands c with
  | none => none
  | some r =>
    if r.info.isActive = true ∨ r.info.isLeaving = true then none
    else match setInsert Bond.owner P.cfg.maxPool s.pool ⟨c, r.info.totalCounted⟩ with
    | (.added, pool) => some { (s.putInfo c r { r.info with status := .active }) with pool := pool }
    | _ => none

/-- The pool after a candidate's own bond changed (`pallets/parachain-staking/src/calls.rs:100-102`, `types.rs:409-411`). -/
def poolAfter (P : Par) (s : St) (c : Nat) (i : Info) : List Bond :=
  if i.isActive = true then updateActive P.cfg s.pool c i.totalCounted else s.pool

/-- `call_candidate_bond_extra`. Models `pallets/parachain-staking/src/calls.rs:90-105` and
`pallets/parachain-staking/src/types.rs:336-360`. -/
def candBondExtra (P : Par) (s : St) (c more : Nat) : Option St :=
  match s.cands c with
  | none => none
  | some r =>
    if s.candFree c < more then none
    else some { (s.putInfo c r (r.info.bondExtra more)) with
      pool := poolAfter P s c (r.info.bondExtra more), clock := upd s.clock c (r.info.bond + more), total := s.total + more }

/-- `call_schedule_candidate_unbond`. Models `pallets/parachain-staking/src/calls.rs:107-122`. -/
def candScheduleUnbond (s : St) (c less : Nat) : Option St :=
  match s.cands c with
  | none => none
  | some r => (r.info.scheduleUnbond s.era s.delay s.minCollator less).map (s.putInfo c r)

/-- `call_execute_candidate_unbond`. Models `pallets/parachain-staking/src/calls.rs:124-130` and
`pallets/parachain-staking/src/types.rs:381-415`. -/
def candExecuteUnbond (P : Par) (s : St) (c : Nat) : Option St :=
  match s.cands c with
  | none => none
  | some r =>
    match r.info.executeUnbond s.era with
    | none => none
    | some (i, less) =>
      some { (s.putInfo c r i) with
        pool := poolAfter P s c i, clock := upd s.clock c (r.info.bond - less), total := s.total - less }

/-- `cancel_candidate_unbond`. Models `pallets/parachain-staking/src/lib.rs:1166-1175`. -/
def candCancelUnbond (s : St) (c : Nat) : Option St :=
  match s.cands c with
  | none => none
  | some r => r.info.cancelUnbond.map (s.putInfo c r)

/-! ### Calls that spread an amount over collators -/

/-- `collator_should_get_dust`. Models `pallets/parachain-staking/src/lib.rs:2264-2280`. -/
def getsDust (dust block n index : Nat) : Bool := if dust = 0 then false else decide (index = block % n)

/-- The amount for one collator in the loops of `split_and_nominate` and `signed_bond_extra`.
Models `pallets/parachain-staking/src/lib.rs:1475-1482,2361-2367`. -/
def shareOf (per dust block n index remaining : Nat) : Nat :=
  min remaining (if getsDust dust block n index then per + dust else per)

/-- `Perbill::from_rational(1, n) * amount` (`pallets/parachain-staking/src/lib.rs:1462,2349`). -/
def perCollator (n amount : Nat) : Nat := perbillMul (perbillFromRational 1 n) amount

/-- The amounts of the loops, from collator `index` on. Models `pallets/parachain-staking/src/lib.rs:1471-1488,2354-2379`. -/
def shares (per dust block n : Nat) : Nat → Nat → Nat → List Nat
  | 0, _, _ => []
  | k + 1, index, remaining =>
    shareOf per dust block n index remaining ::
      shares per dust block n k (index + 1) (remaining - shareOf per dust block n index remaining)

/-- One round of the loop of `split_and_nominate`. Models `pallets/parachain-staking/src/lib.rs:2354-2379`. -/
def splitStep (P : Par) (n : Nat) (o : Option (St × Nat)) (x : Nat × Nat) : Option (St × Nat) :=
  match o with
  | none => none
  | some (s, count) =>
    match s.cands x.1 with
    | none => none
    | some r => (nominate P s n x.1 x.2 r.info.count count).map (fun s' => (s', count + 1))

/-- `split_and_nominate` (with the check of `signed_nominate` that staking is enabled).
Models `pallets/parachain-staking/src/lib.rs:2331-2382,1250`. -/
def splitAndNominate (P : Par) (s : St) (n : Nat) (targets : List Nat) (amount block : Nat) : Option St :=
  if P.enabled = false then none
  else if amount < s.minTotal * targets.length then none
  else if s.nomFree n < amount then none
  else
    let k := targets.length
    let per := perCollator k amount
    let dust := amount - per * k
    ((targets.zip (shares per dust block k k 0 amount)).foldl (splitStep P n)
      (some (s, ((s.noms n).map (fun r => r.noms.length)).getD 0))).map Prod.fst

/-- One round of the loop of `signed_bond_extra`. Models `pallets/parachain-staking/src/lib.rs:1473-1488`. -/
def bondExtraStep (P : Par) (n : Nat) (o : Option St) (x : Nat × Nat) : Option St :=
  match o with
  | none => none
  | some s => bondExtra P s n x.1 x.2

/-- The body of `signed_bond_extra`. Models `pallets/parachain-staking/src/lib.rs:1453-1488`. -/
def bondExtraAll (P : Par) (s : St) (n amount block : Nat) : Option St :=
  if P.enabled = false then none
  else if s.nomFree n < amount then none
  else match s.noms n with
  | none => none
  | some r =>
    let k := r.noms.length
    let per := perCollator k amount
    if per < P.minPer then none
    else
      let dust := amount - per * k
      ((r.noms.map Bond.owner).zip (shares per dust block k k 0 amount)).foldl (bondExtraStep P n) (some s)

/-- `StakeInfo`. Models `pallets/parachain-staking/src/types.rs:1459-1465`. -/
structure Payer where
  owner : Nat
  free : Nat
  reserved : Nat
deriving DecidableEq, Repr

/-- The loop of `identify_collators_to_withdraw_from`; `target` is the average, `out` the outstanding withdrawal.
Models `pallets/parachain-staking/src/lib.rs:2307-2326`. -/
def payersLoop (minPer target : Nat) : List Bond → Nat → List Payer × Nat
  | [], out => ([], out)
  | b :: l, out =>
    let w := min out (b.amount - target)
    if b.amount ≥ w then
      let p : Payer := ⟨b.owner, b.amount - (w + minPer), w⟩
      if out - w = 0 then ([p], 0)
      else let (ps, o) := payersLoop minPer target l (out - w); (p :: ps, o)
    else if out = 0 then ([], 0)
    else payersLoop minPer target l out

/-- `identify_collators_to_withdraw_from`. Models `pallets/parachain-staking/src/lib.rs:2282-2329`. -/
def identifyPayers (P : Par) (s : St) (n less : Nat) : Option (List Payer × Nat) :=
  match s.noms n with
  | none => none
  | some r =>
    if r.total - r.less < s.minTotal + less then none
    else
      let target := perCollator r.noms.length (r.total - r.less - less)
      if target < P.minPer then none
      else some (payersLoop P.minPer target r.noms less)

/-- One round of the loop of `signed_schedule_nominator_unbond`. Models `pallets/parachain-staking/src/lib.rs:1533-1545`. -/
def unbondStep (P : Par) (n : Nat) (o : Option (St × Nat)) (p : Payer) : Option (St × Nat) :=
  match o with
  | none => none
  | some (s, out) =>
    (scheduleDecrease P s n p.owner (p.reserved + min p.free out)).map (fun s' => (s', out - min p.free out))

/-- The body of `signed_schedule_nominator_unbond`. Models `pallets/parachain-staking/src/lib.rs:1529-1551`. -/
def scheduleUnbondAll (P : Par) (s : St) (n less : Nat) : Option St :=
  match identifyPayers P s n less with
  | none => none
  | some (payers, out) =>
    match payers.foldl (unbondStep P n) (some (s, out)) with
    | none => none
    | some (s', out') => if out' = 0 then some s' else none

/-! ### Histories -/

/-- A call, or a step of the environment (the last two). Models `pallets/parachain-staking/src/lib.rs:838-1672`. -/
inductive Op where
  | join (c bond hint : Nat) (registered : Bool)
  | scheduleLeave (c hint : Nat)
  | executeLeave (c hint : Nat)
  | cancelLeave (c hint : Nat)
  | goOffline (c : Nat)
  | goOnline (c : Nat)
  | candBondExtra (c more : Nat)
  | candScheduleUnbond (c less : Nat)
  | candExecuteUnbond (c : Nat)
  | candCancelUnbond (c : Nat)
  | nominate (n c amount hintC hintN : Nat)
  | splitNominate (n : Nat) (targets : List Nat) (amount block : Nat)
  | bondExtra (n c more : Nat)
  | bondExtraAll (n amount block : Nat)
  | scheduleRevoke (n c : Nat)
  | scheduleDecrease (n c less : Nat)
  | scheduleUnbondAll (n less : Nat)
  | cancelRequest (n c : Nat)
  | executeRequest (n c : Nat)
  | executeDue (n : Nat)
  | revokeAll (n : Nat)
  | cancelRevokeAll (n : Nat)
  | executeRevokeAll (n hint : Nat)
  | setDelay (d : Nat)
  | setMinCollator (v : Nat)
  | setMinTotal (v : Nat)
  | newEra
  | setFree (a v : Nat)

/-- One call; `none`: refused. `set_admin_setting`: `pallets/parachain-staking/src/lib.rs:1653-1672`,
`pallets/parachain-staking/src/types.rs:1445-1456`; a new era: `pallets/parachain-staking/src/lib.rs:1679-1712`. -/
def call (P : Par) (s : St) : Op → Option St
  | .join c bond hint reg => joinCandidates P s c bond hint reg
  | .scheduleLeave c hint => scheduleLeave s c hint
  | .executeLeave c hint => executeLeave s c hint
  | .cancelLeave c hint => cancelLeave P s c hint
  | .goOffline c => goOffline s c
  | .goOnline c => goOnline P s c
  | .candBondExtra c more => candBondExtra P s c more
  | .candScheduleUnbond c less => candScheduleUnbond s c less
  | .candExecuteUnbond c => candExecuteUnbond P s c
  | .candCancelUnbond c => candCancelUnbond s c
  | .nominate n c a hc hn => nominateCall P s n c a hc hn
  | .splitNominate n ts a blk => splitAndNominate P s n ts a blk
  | .bondExtra n c m => bondExtraCall P s n c m
  | .bondExtraAll n a blk => bondExtraAll P s n a blk
  | .scheduleRevoke n c => scheduleRevoke P s n c
  | .scheduleDecrease n c l => scheduleDecrease P s n c l
  | .scheduleUnbondAll n l => scheduleUnbondAll P s n l
  | .cancelRequest n c => cancelRequest s n c
  | .executeRequest n c => executeRequest P s n c
  | .executeDue n => executeDue P s n
  | .revokeAll n => revokeAll P s n
  | .cancelRevokeAll n => cancelRevokeAll s n
  | .executeRevokeAll n hint => executeRevokeAll P s n hint
  | .setDelay d => if 0 < d then some { s with delay := d } else none
  | .setMinCollator v => some { s with minCollator := v }
  | .setMinTotal v => if P.minPer ≤ v then some { s with minTotal := v } else none
  | .newEra => some { s with era := s.era + 1 }
  | .setFree a v => some { s with free := upd s.free a v }

/-- A refused call changes nothing (extrinsics are transactional). -/
def step (P : Par) (s : St) (op : Op) : St := (call P s op).getD s

/-- A history of calls. -/
def run (P : Par) (s : St) (ops : List Op) : St := ops.foldl (step P) s

end Verif.Staking
