import Verif.Model.Basic

/-!
# Model of `pallets/avn` and of the parts of `primitives/avn-common` it uses

Quorum policy, primary-validator rotation, validator signature check, voting sessions and the
"run once per block" guard of the off-chain workers.
-/

namespace Verif.Avn

/-- `QuorumPolicy::required_for` for the AvN pallet: `num - num * 2 / 3`.
Models `pallets/avn/src/lib.rs:873-875`. -/
def requiredFor (n : Nat) : Nat := n - n * 2 / 3

/-- `QuorumPolicy::required_for_supermajority`: `num * 2 / 3`.
Models `pallets/avn/src/lib.rs:877-879`. -/
def requiredForSupermajority (n : Nat) : Nat := n * 2 / 3

/-- A validator: account and session (AVN) key. Models `primitives/avn-common/src/event_types.rs` `Validator`.
Accounts and keys are opaque identifiers. -/
structure Validator where
  account : Nat
  key : Nat
deriving DecidableEq, Repr

/-- Errors of the pallet that matter here. Models `pallets/avn/src/lib.rs:145-170`. -/
inductive Err where
  | notAValidator | noValidatorsFound | duplicateVote | invalidVote | vectorBoundsExceeded
  | offchainWorkerAlreadyRun | panic
deriving DecidableEq, Repr

/-- The pallet's storage: `Validators` and `PrimaryCollatorIndexForSending` (a `u8`).
Models `pallets/avn/src/lib.rs:172-189`. -/
structure State where
  validators : List Validator
  primaryIndex : Nat

/-- `is_validator`. Models `pallets/avn/src/lib.rs:449-451`. -/
def isValidator (vs : List Validator) (a : Nat) : Bool := vs.any (fun v => v.account == a)

/-- `get_quorum`: quorum of the current validator list. Models `pallets/avn/src/lib.rs:881-884`. -/
def getQuorum (vs : List Validator) : Nat := requiredFor vs.length

/-- `get_supermajority_quorum`. Models `pallets/avn/src/lib.rs:886-889`. -/
def getSupermajorityQuorum (vs : List Validator) : Nat := requiredForSupermajority vs.length

/-- `get_primary_validator_for_sending`. Resets an out-of-range index to zero.
Models `pallets/avn/src/lib.rs:277-293`. -/
def getPrimary (s : State) : Except Err (Nat × State) :=
  if s.validators = [] then .error .noValidatorsFound
  else
    let s' := if s.primaryIndex ≥ s.validators.length then { s with primaryIndex := 0 } else s
    match s'.validators[s'.primaryIndex]? with
    | some v => .ok (v.account, s')
    | none => .error .panic

/-- `advance_primary_validator_for_sending`. `validators.len() as u8` truncates modulo 256 and
`% 0` panics, as does an out-of-range index. Models `pallets/avn/src/lib.rs:315-330`. -/
def advancePrimary (s : State) : Except Err (Nat × State) :=
  if s.validators = [] then .error .noValidatorsFound
  else
    let len := s.validators.length % 256
    if len = 0 then .error .panic
    else
      let index := (min (s.primaryIndex + 1) 255) % len
      match s.validators[index]? with
      | some v => .ok (v.account, { s with primaryIndex := index })
      | none => .error .panic

/-- `calculate_primary_validator_for_block`: index `block mod len`.
Models `pallets/avn/src/lib.rs:332-347`. -/
def primaryForBlock (vs : List Validator) (block : Nat) : Except Err Nat :=
  if vs = [] then .error .noValidatorsFound
  else match vs[block % vs.length]? with
    | some v => .ok v.account
    | none => .error .panic

/-- `signature_is_valid`: the account must be a validator, then the signature is verified against the key
*carried by the argument*, which the caller supplies. `verify key data sig` is the abstract sr25519 check.
Models `pallets/avn/src/lib.rs:417-440`. -/
def signatureIsValid {Data Sig : Type} (verify : Nat → Data → Sig → Bool) (vs : List Validator)
    (data : Data) (v : Validator) (sig : Sig) : Bool :=
  isValidator vs v.account && verify v.key data sig

/-- `remove_validator_from_active_list`: removes the first entry of the account.
Models `pallets/avn/src/lib.rs:465-473`. -/
def removeValidator (vs : List Validator) (a : Nat) : List Validator :=
  vs.eraseP (fun v => v.account == a)

/-! ## Voting sessions (`pallets/avn/src/vote.rs`) -/

/-- `VotingSessionData` (the session id is omitted: one session is modelled at a time).
Models `pallets/avn/src/vote.rs:38-52`. -/
structure Session where
  threshold : Nat
  ayes : List Nat
  nays : List Nat
  endOfVotingPeriod : Nat
  createdAt : Nat
deriving DecidableEq, Repr

/-- `VotingSessionData::new`. Models `pallets/avn/src/vote.rs:70-84`. -/
def Session.new (threshold endBlock createdAt : Nat) : Session :=
  { threshold := threshold, ayes := [], nays := [], endOfVotingPeriod := endBlock, createdAt := createdAt }

/-- `has_outcome`. Models `pallets/avn/src/vote.rs:86-89`. -/
def Session.hasOutcome (s : Session) : Bool :=
  decide (s.ayes.length ≥ s.threshold) || decide (s.nays.length ≥ s.threshold)

/-- `is_approved`. Models `pallets/avn/src/vote.rs:92-94`. -/
def Session.isApproved (s : Session) : Bool := decide (s.ayes.length ≥ s.threshold)

/-- `has_voted`. Models `pallets/avn/src/vote.rs:97-99`. -/
def Session.hasVoted (s : Session) (a : Nat) : Bool := s.ayes.contains a || s.nays.contains a

/-- `MaximumValidatorsBound` (`primitives/avn-common/src/lib.rs`, bounds): 256. -/
def maxValidators : Nat := 256

/-- `validate_vote` : voter is a validator, the session is active (`active` is the manager's `is_active`), and has not voted.
Models `pallets/avn/src/vote.rs:133-141`. -/
def validateVote (vs : List Validator) (active : Bool) (s : Session) (voter : Nat) : Except Err Unit :=
  if isValidator vs voter = false then .error .notAValidator
  else if active = false then .error .invalidVote
  else if s.hasVoted voter then .error .duplicateVote
  else .ok ()

/-- `process_approve_vote` / `process_reject_vote` up to (not including) the automatic end of the session:
validate, then push onto the bounded `ayes` (`nays`) vector.
Models `pallets/avn/src/vote.rs:123-131,143-151` with the `record_*_vote` of
`pallets/summary/src/vote.rs`. -/
def castVote (vs : List Validator) (active : Bool) (s : Session) (voter : Nat) (approve : Bool) :
    Except Err Session :=
  match validateVote vs active s voter with
  | .error e => .error e
  | .ok () =>
    if approve then
      if s.ayes.length < maxValidators then .ok { s with ayes := s.ayes ++ [voter] }
      else .error .vectorBoundsExceeded
    else
      if s.nays.length < maxValidators then .ok { s with nays := s.nays ++ [voter] }
      else .error .vectorBoundsExceeded

/-! ## Off-chain worker guard (`primitives/avn-common/src/ocw_lock.rs`) -/

/-- `record_block_run` against the persistent local storage cell `last` of one worker identity. The storage
`mutate` is atomic (`StorageValueRef::mutate`); a concurrent modification makes the call fail without a write and is
the `conflict = true` case. Models `primitives/avn-common/src/ocw_lock.rs:16-43`. -/
def recordBlockRun (last : Option Nat) (block : Nat) (conflict : Bool) : Bool × Option Nat :=
  match last with
  | some b => if b ≥ block then (false, last) else if conflict then (false, last) else (true, some block)
  | none => if conflict then (false, last) else (true, some block)

end Verif.Avn
