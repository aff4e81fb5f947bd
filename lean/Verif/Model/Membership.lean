import Verif.Model.Validators
import Verif.Model.StakingEra
import Verif.Model.EthBridgeTx

/-!
# Model of validator membership: validators-manager, staking, sessions and the list of authors together

`Model/Validators.lean` takes the answers of staking and of the session pallet as inputs. Here the three are put together as the runtime
does it (`runtime/avn/src/configs/mod.rs:253-310,376-384`, `runtime/avn/src/lib.rs:211-229,271-289`): a confirmed registration joins
the staking candidates, a confirmed removal schedules the exit from staking, the session pallet rotates when an era ends, and the new
session carries out the exits and sets the list of authors of `pallets/avn`.

Simplifications: `pallet_session` is a dependency (its source is not in `/repo`); `rotate`, `setKeys` and `purgeKeys` follow its
`rotate_session`, `set_keys` and `purge_keys`. An account's session keys are one opaque number, and only the AvN handler of a new session
is modelled (Aura, ImOnline and AuthorityDiscovery receive the same list). `DisabledValidatorChecker` is `()`: nobody is disabled. The
four calls blocked by `RestrictedEndpointFilter` are not steps of users; calls dispatched by the administrator around the filter
(`sudo_as`) are left out. Whether Ethereum keys decompress and the bridge accepts a request are inputs, as in `Model/Validators.lean`.
-/

namespace Verif.Membership

open Verif.Staking (EPar St Full EOp)

/-- The storage: validators-manager, staking, the session pallet (`NextKeys`, `KeyOwner`, `QueuedKeys`, `Validators`, `QueuedChanged`,
`CurrentIndex`) and the `Validators` of `pallets/avn`. -/
structure Chain where
  vm : Validators.State
  stk : Full
  keys : Nat → Option Nat
  owner : Nat → Option Nat
  queued : List (Nat × Nat)
  sessionVals : List Nat
  changed : Bool
  index : Nat
  authors : List (Nat × Nat)

/-- Replacing the staking ledger. -/
def Chain.withLed (c : Chain) (s : St) : Chain := { c with stk := { c.stk with led := s } }

/-! ### Changes of the validator list -/

/-- `validate_staking_preconditions`. Models `pallets/validators-manager/src/lib.rs:513-534`. -/
def stakingReady (s : St) (a deposit : Nat) : Bool :=
  decide ((s.cands a).isNone = true ∧ s.minCollator ≤ deposit ∧ deposit ≤ s.free a)

/-- `add_collator`, whose deposit defaults to the minimum stake. Models `pallets/validators-manager/src/lib.rs:269-298`. -/
def addCollator (c : Chain) (a k : Nat) (deposit : Option Nat) (keyOk bridgeOk : Bool) : Chain :=
  let bond := deposit.getD c.stk.led.minCollator
  let r := Validators.addCollator c.vm a k bond (c.keys a).isSome (stakingReady c.stk.led a bond) keyOk bridgeOk
  { c with vm := Validators.commit c.vm r }

/-- What a confirmed change does to staking: `add_validator_to_staking` (with the stored deposit or the minimum, as many candidates as
there are as a hint), or `schedule_leave_candidates`. `none`: staking refuses.
Models `pallets/validators-manager/src/lib.rs:705-720,736-748,783-800`. -/
def stakingPart (E : EPar) (c : Chain) (tx : Nat) : Option St :=
  match c.vm.txMap tx with
  | none => some c.stk.led
  | some (a, i) =>
    match Validators.getAction c.vm a i with
    | none => some c.stk.led
    | some e =>
      if e.kind = .registration then
        Staking.joinCandidates E.par c.stk.led a ((c.vm.deposits a).getD c.stk.led.minCollator) c.stk.led.pool.length (c.keys a).isSome
      else if e.kind = .resignation then Staking.scheduleLeave c.stk.led a c.stk.led.pool.length
      else some c.stk.led

/-- The bridge reports a result inside an extrinsic (`complete_transaction`): an error rolls everything back.
Models `pallets/validators-manager/src/lib.rs:898-938`, `pallets/eth-bridge/src/tx.rs:10-20`. -/
def bridgeResult (E : EPar) (c : Chain) (tx : Nat) (mine ok : Bool) : Chain :=
  let part := if mine && ok then stakingPart E c tx else some c.stk.led
  match Validators.processResult c.vm tx mine ok part.isSome with
  | (vm, none) => { c with vm := vm, stk := { c.stk with led := part.getD c.stk.led } }
  | (_, some _) => c

/-- The answer of the runtime when the bridge reports the result of a transaction: the other pallets told ignore results of this caller.
`false`: an error. Models `pallets/validators-manager/src/lib.rs:57,899-938`, `runtime/avn/src/configs/mod.rs:519`. -/
def onResult (E : EPar) (c : Chain) (tx : Nat) (caller : List UInt8) (ok : Bool) : Chain × Bool :=
  let mine := caller == ascii "author_manager"
  let part := if mine && ok then stakingPart E c tx else some c.stk.led
  (bridgeResult E c tx mine ok, (Validators.processResult c.vm tx mine ok part.isSome).2.isNone)

/-! ### Sessions -/

/-- `exit_from_staking`. Models `pallets/validators-manager/src/lib.rs:536-567`. -/
def exitStaking (s : St) (a : Nat) : Option St :=
  match s.cands a with
  | none => none
  | some r => Staking.executeLeave s a r.info.count

/-- One round of the loop of validators-manager's `on_new_session`; the Boolean says whether the loop goes on.
Models `pallets/validators-manager/src/lib.rs:965-1010`. -/
def visitOne (active : List Nat) (vm : Validators.State) (s : St) (a i : Nat) : Validators.State × St × Bool :=
  match Validators.getAction vm a i with
  | none => (vm, s, true)
  | some e =>
    if e.status = .actioned ∧ e.kind = .resignation then
      if a ∈ active then (vm, s, true)
      else
        match exitStaking s a with
        | none => (vm, s, true)
        | some s' => ({ vm with actions := Validators.setAction vm.actions a i .confirmed e.kind }, s', true)
    else if e.status = .actioned ∧ e.kind = .activation then
      if a ∈ active then
        ({ vm with actions := Validators.setAction vm.actions a i .confirmed e.kind }, s, (vm.rev a).isSome)
      else (vm, s, true)
    else if e.status = .confirmed then ({ vm with actions := Validators.dropAction vm.actions a i }, s, true)
    else (vm, s, true)

/-- The loop, over the action entries in some order. Models `pallets/validators-manager/src/lib.rs:958-1014`. -/
def visitAll (active : List Nat) : List (Nat × Nat) → Validators.State → St → Validators.State × St
  | [], vm, s => (vm, s)
  | (a, i) :: rest, vm, s =>
    match visitOne active vm s a i with
    | (vm', s', true) => visitAll active rest vm' s'
    | (vm', s', false) => (vm', s')

/-- The keys of the accounts that have keys, in order (`filter_map` with `load_keys` in `rotate_session`). -/
def withKeys (keys : Nat → Option Nat) (l : List Nat) : List (Nat × Nat) := l.filterMap fun a => (keys a).map fun k => (a, k)

/-- Whether the queued keys differ from the present ones, in `rotate_session`: always when there is a new list, else by a comparison
entry by entry. -/
def differs (fresh : Bool) (now next : List (Nat × Nat)) : Bool :=
  fresh || (now.zip next).any fun p => decide (p.1.2 ≠ p.2.2)

/-- `rotate_session` with the hooks of staking (`new_session`), of `pallets/avn` (`on_new_session`) and of validators-manager. The queued
validators become the present ones; the selected collators with session keys are queued, or the present ones if nobody is selected.
Models `pallets/parachain-staking/src/session_handler.rs:17-35`, `pallets/avn/src/lib.rs:605-636`. -/
def rotate (c : Chain) (visit : List (Nat × Nat)) : Chain :=
  let now := c.queued
  let next := if c.stk.selected = [] then now.map Prod.fst else c.stk.selected
  let queued := withKeys c.keys next
  let r := visitAll (now.map Prod.fst) visit c.vm c.stk.led
  { c with
    vm := r.1
    stk := { c.stk with led := r.2 }
    sessionVals := now.map Prod.fst
    index := c.index + 1
    queued := queued
    changed := differs (decide (c.stk.selected ≠ [])) now queued
    authors := if c.changed then now else c.authors }

/-- The hooks of a block in the order of the runtime: authorship, session (rotating at the end of an era, or at once after a forced new
era), staking. `none` is a panic.
Models `pallets/parachain-staking/src/session_handler.rs:46-78`, `pallets/parachain-staking/src/lib.rs:457-478`,
`runtime/avn/src/lib.rs:271-284`. -/
def block (E : EPar) (c : Chain) (pub : Nat → Option Nat) (now author pick : Nat) (visit : List (Nat × Nat)) : Option Chain :=
  let F := Staking.noteAuthor c.stk author
  match Staking.sessionHook E pub F now with
  | none => none
  | some F1 =>
    let c1 := { c with stk := F1 }
    let c2 := if Staking.shouldUpdate F now || F.force then rotate c1 visit else c1
    (Staking.initHook E pub c2.stk now pick).map fun F2 => { c2 with stk := F2 }

/-- `set_keys` of the session pallet: refused if another account owns the keys. -/
def setKeys (c : Chain) (a k : Nat) : Chain :=
  if c.owner k = none ∨ c.owner k = some a then
    let cleared := match c.keys a with
      | none => c.owner
      | some old => upd c.owner old none
    { c with keys := upd c.keys a (some k), owner := upd cleared k (some a) }
  else c

/-- `purge_keys` of the session pallet. -/
def purgeKeys (c : Chain) (a : Nat) : Chain :=
  match c.keys a with
  | none => c
  | some old => { c with keys := upd c.keys a none, owner := upd c.owner old none }

/-! ### Histories -/

/-- The steps of staking a user or the administrator can make: not the hooks of a block, and not the four calls blocked by
`RestrictedEndpointFilter`. Models `runtime/avn/src/lib.rs:211-229`. -/
def userCall : EOp → Bool
  | .block .. => false
  | .ledger (.join ..) => false
  | .ledger (.scheduleLeave ..) => false
  | .ledger (.executeLeave ..) => false
  | .ledger (.cancelLeave ..) => false
  | _ => true

/-- What can happen. -/
inductive Step where
  | block (pub : Nat → Option Nat) (now author pick : Nat) (visit : List (Nat × Nat))
  | staking (op : EOp)
  | addCollator (a k : Nat) (deposit : Option Nat) (keyOk bridgeOk : Bool)
  | removeValidator (a : Nat) (keyOk bridgeOk : Bool)
  | rotateEthKey (a old new : Nat)
  | otherPublish
  | bridgeResult (tx : Nat) (mine ok : Bool)
  | bridgeDropped (tx : Nat) (mine : Bool)
  | setKeys (a k : Nat)
  | purgeKeys (a : Nat)

/-- One step; a refused call changes nothing, and so does a block whose hooks panic (it cannot be produced). -/
def step (E : EPar) (minV : Nat) (c : Chain) : Step → Chain
  | .block pub now author pick visit => (block E c pub now author pick visit).getD c
  | .staking op => if userCall op then { c with stk := Staking.eStep E c.stk op } else c
  | .addCollator a k d ko bo => addCollator c a k d ko bo
  | .removeValidator a ko bo => { c with vm := Validators.step minV c.vm (.remove a ko bo) }
  | .rotateEthKey a old new => { c with vm := Validators.step minV c.vm (.rotate a old new) }
  | .otherPublish => { c with vm := Validators.step minV c.vm .otherPublish }
  | .bridgeResult tx mine ok => bridgeResult E c tx mine ok
  | .bridgeDropped tx mine => { c with vm := Validators.step minV c.vm (.bridgeDropped tx mine) }
  | .setKeys a k => setKeys c a k
  | .purgeKeys a => purgeKeys c a

/-- A history. -/
def run (E : EPar) (minV : Nat) (c : Chain) (steps : List Step) : Chain := steps.foldl (step E minV) c

/-- The state at genesis: validators with Ethereum keys, the staking state, and the session keys of some accounts, which are the
first validators of the session pallet and the first authors (staking has not chosen collators yet when the session pallet asks).
Models `pallets/validators-manager/src/lib.rs:242-260`, `pallets/avn/src/lib.rs:584-603`. -/
def genesis (vs : List (Nat × Nat)) (F : Full) (sk : List (Nat × Nat)) : Chain where
  vm := Validators.genesis vs
  stk := F
  keys := fun a => (sk.find? fun x => x.1 == a).map Prod.snd
  owner := fun k => (sk.find? fun x => x.2 == k).map Prod.fst
  queued := sk
  sessionVals := sk.map Prod.fst
  changed := false
  index := 0
  authors := sk

end Verif.Membership
