import Verif.Model.Avn

/-!
# Model of `pallets/summary`

Proposal, voting and acceptance of summary roots, slot rotation, slot challenges, configuration and external
validation. Account ids, root hashes and external references are opaque numbers (`0` is the empty root). The
answers of the Ethereum bridge (`publish`: a transaction id or an error) and of the watchtower (`submit_proposal`:
success or error) are inputs of the steps. The reporting of offences is a log entry only; which accounts can be
identified as offenders is not modelled. Validators' signatures are represented by the account they name, which must
be a current author (`signature_is_valid`). The off-chain worker is in `Model/SummaryWorker.lean`; here its
transactions are ordinary steps.
-/

namespace Verif.Summary

open Verif

/-- `RootRange`. Models `primitives/avn-common/src/lib.rs:423-441`. -/
structure Range where
  fromBlock : Nat
  toBlock : Nat
deriving DecidableEq, Repr

/-- `RootId`. Models `primitives/avn-common/src/lib.rs:443-452`. -/
structure RootId where
  range : Range
  ingress : Nat
deriving DecidableEq, Repr

/-- `RootData`. Models `pallets/summary/src/types.rs:8-42`. -/
structure RootData where
  rootHash : Nat
  addedBy : Option Nat
  validated : Bool
  finalised : Bool
  txId : Option Nat
deriving DecidableEq, Repr

/-- `RootData::default`. Models `pallets/summary/src/types.rs:32-42`. -/
def RootData.dflt : RootData :=
  { rootHash := 0, addedBy := none, validated := false, finalised := false, txId := none }

/-- `ExternalValidationEnum`. Models `pallets/summary/src/types.rs:44-51`. -/
inductive ExtStatus where
  | unknown | inProgress | pendingAdminReview | accepted | rejected
deriving DecidableEq, Repr

/-- `SummaryOffenceType`. Models `pallets/summary/src/offence.rs:15-24` (the ones this pallet produces). -/
inductive Offence where
  | slotNotAdvanced | noSummaryCreated | rejectedValidRoot | createdInvalidRoot | approvedInvalidRoot
deriving DecidableEq, Repr

/-- Observable log: the pallet's events (and offence reports). `passed` is `RootPassedValidation`, deposited
when a root is handed to Ethereum (`tx = some _`) or stored as an anchor root.
Models `pallets/summary/src/lib.rs:159-229`. -/
inductive Event where
  | calculated (rid : RootId) (hash by_ : Nat)
  | votingEnded (rid : RootId) (approved : Bool)
  | validated (rid : RootId) (hash : Nat)
  | passed (rid : RootId) (hash : Nat) (tx : Option Nat)
  | slotAdvanced (by_ newSlot validator slotEnd : Nat)
  | challengeAdded (slot challenger challengee : Nat)
  | reviewRequested (rid : RootId) (ref : Nat)
  | resolved (rid : RootId) (accepted : Bool)
  | finalised (rid : RootId) (tx : Nat)
  | offence (ty : Offence) (who : List Nat)
deriving DecidableEq, Repr

/-- Errors. Models `pallets/summary/src/lib.rs:231-274`. -/
inductive Err where
  | overflow | invalidIngressCounter | invalidKey | pendingOrApproved | alreadyRegistered | invalidRange
  | rootDataNotFound | vote (e : Avn.Err) | sessionNotValid | errorEndingVotingPeriod | publish | thresholdNotSet
  | submitProposal | slotValidatorNotFound | tooEarlyToAdvance | gracePeriodElapsed | wrongValidator
  | primary (e : Avn.Err) | invalidChallenge | scheduleTooShort | votingTooShort | votingNotShorter | votingTooLong
  | invalidThreshold | requestNotFound | statusMissing | invalidRoot | badTransaction
deriving DecidableEq, Repr

/-- Storage. `roots` is the `Roots` double map as an association list (newest first, one entry per id), so that
"any root of this range" is expressible. `auto`, `external` and `grace` are runtime configuration.
Models `pallets/summary/src/lib.rs:286-400`. -/
structure State where
  nextBlock : Nat
  txIdToRoot : Nat → Option RootId
  nextSlotAt : Nat
  currentSlot : Nat
  slotValidator : Option Nat
  lastSummarySlot : Nat
  roots : List (RootId × RootData)
  votes : RootId → Option Avn.Session
  pending : Range → Option Nat
  totalIngresses : Nat
  schedulePeriod : Nat
  votingPeriod : Nat
  anchorCounter : Nat
  anchorRoots : Nat → Option Nat
  extStatus : RootId → Option ExtStatus
  extRef : Nat → Option RootId
  reviews : RootId → Option Nat
  threshold : Option Nat
  block : Nat
  validators : List Avn.Validator
  auto : Bool
  external : Bool
  grace : Nat
  log : List Event

/-- Constants. Models `pallets/summary/src/lib.rs:65-69`. -/
def minSchedulePeriod : Nat := 30
/-- See `minSchedulePeriod`. -/
def minVotingPeriod : Nat := 25
/-- See `minSchedulePeriod`. -/
def maxVotingPeriod : Nat := 28800

/-- `Roots::get` with presence. -/
def getRoot (roots : List (RootId × RootData)) (rid : RootId) : Option RootData :=
  (roots.find? (fun e => e.1 == rid)).map (·.2)

/-- `Roots::insert`. -/
def putRoot (roots : List (RootId × RootData)) (rid : RootId) (d : RootData) : List (RootId × RootData) :=
  (rid, d) :: roots.filter (fun e => e.1 != rid)

/-- `Roots::mutate` (a missing entry is read as the default and written). -/
def mutateRoot (roots : List (RootId × RootData)) (rid : RootId) (f : RootData → RootData) : List (RootId × RootData) :=
  putRoot roots rid (f ((getRoot roots rid).getD .dflt))

/-- `safe_add_block_numbers` on `u32` block numbers. Models `primitives/avn-common/src/lib.rs:183-188`. -/
def addBlocks (a b : Nat) : Except Err Nat := if a + b < pow32 then .ok (a + b) else .error .overflow

/-- `get_target_block`. Models `pallets/summary/src/lib.rs:1287-1300`. -/
def targetBlock (s : State) : Except Err Nat :=
  match addBlocks s.nextBlock s.schedulePeriod with
  | .error e => .error e
  | .ok e =>
    if s.nextBlock = 0 then .ok e
    else if 1 ≤ e then .ok (e - 1) else .error .overflow

/-- `summary_is_neither_pending_nor_approved`. Models `pallets/summary/src/lib.rs:1538-1546`. -/
def neitherPendingNorApproved (s : State) (r : Range) : Bool :=
  (s.pending r).isNone && !(s.roots.any (fun e => e.1.range == r && e.2.validated))

/-- `RootVotingSession::is_valid`. Models `pallets/summary/src/vote.rs:58-81`. -/
def sessionValid (s : State) (rid : RootId) : Bool :=
  match getRoot s.roots rid, s.pending rid.range, s.votes rid with
  | some d, some k, some _ => !d.validated && k == rid.ingress
  | _, _, _ => false

/-- `RootVotingSession::is_active`. Models `pallets/summary/src/vote.rs:83-89`. -/
def sessionActive (s : State) (rid : RootId) : Bool :=
  match s.votes rid with
  | some v => decide (s.block < v.endOfVotingPeriod) && sessionValid s rid
  | none => false

/-- The storage effects of `record_summary_calculation`. Models `pallets/summary/src/lib.rs:528-547`. -/
def recordEffects (s : State) (rid : RootId) (hash who voteEnd : Nat) : State :=
  { s with
    totalIngresses := rid.ingress
    roots := putRoot s.roots rid
      { rootHash := hash, addedBy := some who, validated := false, finalised := false, txId := none }
    pending := upd s.pending rid.range (some rid.ingress)
    votes := upd s.votes rid (some (Avn.Session.new (Avn.getQuorum s.validators) voteEnd s.block))
    log := s.log ++ [.calculated rid hash who] }

/-- `record_summary_calculation`. Models `pallets/summary/src/lib.rs:495-555`. -/
def recordSummary (s : State) (newBlock hash ingress who : Nat) : Except Err State :=
  if wrapInc64 s.totalIngresses ≠ ingress then .error .invalidIngressCounter
  else if Avn.isValidator s.validators who = false then .error .invalidKey
  else
    let rid : RootId := { range := { fromBlock := s.nextBlock, toBlock := newBlock }, ingress := ingress }
    match targetBlock s with
    | .error e => .error e
    | .ok target =>
      if neitherPendingNorApproved s rid.range = false then .error .pendingOrApproved
      else if (s.votes rid).isSome then .error .alreadyRegistered
      else if newBlock ≠ target then .error .invalidRange
      else match addBlocks s.block s.votingPeriod with
        | .error e => .error e
        | .ok voteEnd => .ok (recordEffects s rid hash who voteEnd)

/-- `process_accepted_root` with `send_root_to_ethereum` and `get_next_approved_root_id`; `pub` is the bridge's answer.
Models `pallets/summary/src/utils.rs:14-36`, `pallets/summary/src/lib.rs:1329-1359`. -/
def processAccepted (s : State) (rid : RootId) (pub : Option Nat) : Except Err State :=
  match getRoot s.roots rid with
  | none => .error .rootDataNotFound
  | some d =>
    if d.rootHash = 0 then .ok s
    else if s.auto then
      match pub with
      | none => .error .publish
      | some tx => .ok { s with
          roots := mutateRoot s.roots rid (fun d => { d with txId := some tx })
          txIdToRoot := upd s.txIdToRoot tx (some rid)
          log := s.log ++ [.passed rid d.rootHash (some tx)] }
    else if s.anchorCounter + 1 < pow32 then .ok { s with
      anchorCounter := s.anchorCounter + 1
      anchorRoots := upd s.anchorRoots s.anchorCounter (some d.rootHash)
      log := s.log ++ [.passed rid d.rootHash none] }
    else .error .overflow

/-- `submit_root_for_external_validation`; `refOf` is the hash of (root id, root hash), `prop` whether the watchtower
accepts the proposal. Models `pallets/summary/src/utils.rs:47-87`. -/
def submitExternal (refOf : RootId → Nat → Nat) (s : State) (rid : RootId) (hash : Nat) (prop : Bool) : Except Err State :=
  if s.threshold.isNone then .error .thresholdNotSet
  else if prop = false then .error .submitProposal
  else .ok { s with
    extRef := upd s.extRef (refOf rid hash) (some rid)
    extStatus := upd s.extStatus rid (some .inProgress) }

/-- The acceptance part of `end_voting`. Models `pallets/summary/src/lib.rs:1377-1384`. -/
def acceptRoot (refOf : RootId → Nat → Nat) (s : State) (rid : RootId) (d : RootData) (pub : Option Nat) (prop : Bool) :
    Except Err State :=
  if d.rootHash = 0 then .ok s
  else if s.external then submitExternal refOf s rid d.rootHash prop
  else processAccepted s rid pub

/-- The rest of `end_voting` for an approved root. Models `pallets/summary/src/lib.rs:1387-1412,1431,1447`. -/
def markValidated (s : State) (rid : RootId) (d : RootData) (v : Avn.Session) : State :=
  { s with
    nextBlock := rid.range.toBlock + 1
    roots := mutateRoot s.roots rid (fun d => { d with validated := true })
    lastSummarySlot := s.currentSlot
    pending := upd s.pending rid.range none
    log := s.log ++ [.offence .rejectedValidRoot v.nays, .validated rid d.rootHash, .votingEnded rid true] }

/-- `end_voting`. Models `pallets/summary/src/lib.rs:1361-1449`. -/
def endVoting (refOf : RootId → Nat → Nat) (s : State) (rid : RootId) (pub : Option Nat) (prop : Bool) :
    Except Err State :=
  if sessionValid s rid = false then .error .sessionNotValid
  else match s.votes rid, getRoot s.roots rid with
    | some v, some d =>
      if (v.hasOutcome || decide (s.block ≥ v.endOfVotingPeriod)) = false then .error .errorEndingVotingPeriod
      else if v.isApproved then
        match acceptRoot refOf s rid d pub prop with
        | .error e => .error e
        | .ok s1 =>
          match addBlocks rid.range.toBlock 1 with
          | .error e => .error e
          | .ok _ => .ok (markValidated s1 rid d v)
      else match d.addedBy with
        | none => .error .slotValidatorNotFound
        | some creator => .ok { s with
            pending := upd s.pending rid.range none
            log := s.log ++ [.offence .createdInvalidRoot [creator], .offence .approvedInvalidRoot v.ayes,
              .votingEnded rid false] }
    | _, _ => .error .rootDataNotFound

/-- `approve_root` / `reject_root`: `validate_vote`, record, end the session if the outcome is reached and it is still
active. Models `pallets/summary/src/lib.rs:560-604`, `pallets/avn/src/vote.rs:123-163`. -/
def castVote (refOf : RootId → Nat → Nat) (s : State) (rid : RootId) (voter : Nat) (approve : Bool) (pub : Option Nat)
    (prop : Bool) : Except Err State :=
  match s.votes rid with
  | none => .error (.vote .invalidVote)
  | some v =>
    match Avn.castVote s.validators (sessionActive s rid) v voter approve with
    | .error e => .error (.vote e)
    | .ok v' =>
      let s1 := { s with votes := upd s.votes rid (some v') }
      if v'.hasOutcome && sessionActive s1 rid then endVoting refOf s1 rid pub prop else .ok s1

/-- `grace_period_elapsed`. Models `pallets/summary/src/lib.rs:938-945`. -/
def graceElapsed (s : State) : Bool := decide (s.block - s.nextSlotAt > s.grace)

/-- `validator_can_advance_slot`. Models `pallets/summary/src/lib.rs:953-976`. -/
def canAdvance (s : State) (who : Nat) : Except Err Unit :=
  if s.block < s.nextSlotAt then .error .tooEarlyToAdvance
  else match s.slotValidator with
    | none => .error .slotValidatorNotFound
    | some v =>
      if graceElapsed s then
        if who = v then .error .gracePeriodElapsed else .ok ()
      else
        if who ≠ v then .error .wrongValidator else .ok ()

/-- `register_offence_if_no_summary_created_in_slot`. Models `pallets/summary/src/lib.rs:1146-1174`. -/
def noSummaryOffence (s : State) : List Event :=
  if s.lastSummarySlot < s.currentSlot then
    match s.slotValidator with
    | none => []
    | some v => [.offence .noSummaryCreated [v]]
  else []

/-- `update_slot_number`. Models `pallets/summary/src/lib.rs:978-1012`. -/
def updateSlot (s : State) (who : Nat) : Except Err State :=
  match canAdvance s who with
  | .error e => .error e
  | .ok () =>
    match addBlocks s.currentSlot 1 with
    | .error e => .error e
    | .ok slot =>
      match Avn.primaryForBlock s.validators slot with
      | .error e => .error (.primary e)
      | .ok v =>
        match addBlocks s.nextSlotAt s.schedulePeriod with
        | .error e => .error e
        | .ok next => .ok { s with
            currentSlot := slot
            slotValidator := some v
            nextSlotAt := next
            log := s.log ++ noSummaryOffence s ++ [.slotAdvanced who slot v next] }

/-- `SummaryChallenge::is_valid` for `SlotNotAdvanced(slot)` (`none` = `Unknown`).
Models `pallets/summary/src/challenge.rs:49-69`. -/
def challengeValid (s : State) (slot : Option Nat) (challengee : Nat) : Bool :=
  match slot, s.slotValidator with
  | some n, some v => n == s.currentSlot && graceElapsed s && challengee == v
  | _, _ => false

/-- `add_challenge` (`who` is the submitting validator). Models `pallets/summary/src/lib.rs:643-690`. -/
def addChallenge (s : State) (slot : Option Nat) (challenger challengee who : Nat) : Except Err State :=
  if challengeValid s slot challengee = false then .error .invalidChallenge
  else
    let s1 := { s with log := s.log ++ [.offence .slotNotAdvanced [challengee]] }
    match updateSlot s1 who with
    | .error e => .error e
    | .ok s2 => .ok { s2 with log := s2.log ++ [.challengeAdded (slot.getD 0) challenger challengee] }

/-- `validate_schedule_period`. Models `pallets/summary/src/lib.rs:908-917`. -/
def validSchedule (sp : Nat) : Except Err Unit :=
  if sp < minSchedulePeriod then .error .scheduleTooShort else .ok ()

/-- `validate_voting_period`. Models `pallets/summary/src/lib.rs:919-936`. -/
def validVoting (vp sp : Nat) : Except Err Unit :=
  if vp < minVotingPeriod then .error .votingTooShort
  else if vp ≥ sp then .error .votingNotShorter
  else if vp > maxVotingPeriod then .error .votingTooLong
  else .ok ()

/-- `set_periods`. Models `pallets/summary/src/lib.rs:465-488`. -/
def setPeriods (s : State) (sp vp : Nat) : Except Err State :=
  match validSchedule sp with
  | .error e => .error e
  | .ok () =>
    match validVoting vp sp with
    | .error e => .error e
    | .ok () =>
      match addBlocks s.nextBlock sp with
      | .error e => .error e
      | .ok slotAt => .ok { s with schedulePeriod := sp, votingPeriod := vp, nextSlotAt := slotAt }

/-- `set_admin_config(SchedulePeriod)`. Models `pallets/summary/src/lib.rs:719-733`. -/
def setSchedule (s : State) (sp : Nat) : Except Err State :=
  match validSchedule sp with
  | .error e => .error e
  | .ok () =>
    match validVoting s.votingPeriod sp with
    | .error e => .error e
    | .ok () =>
      match addBlocks s.nextBlock sp with
      | .error e => .error e
      | .ok slotAt => .ok { s with schedulePeriod := sp, nextSlotAt := slotAt }

/-- `set_admin_config(VotingPeriod)`. Models `pallets/summary/src/lib.rs:734-742`. -/
def setVoting (s : State) (vp : Nat) : Except Err State :=
  match validVoting vp s.schedulePeriod with
  | .error e => .error e
  | .ok () => .ok { s with votingPeriod := vp }

/-- `set_admin_config(ExternalValidationThreshold)`. Models `pallets/summary/src/lib.rs:704-718`. -/
def setThreshold (s : State) (t : Nat) : Except Err State :=
  if t > 0 ∧ t ≤ 100 then .ok { s with threshold := some t } else .error .invalidThreshold

/-- `cleanup_external_validation_data`. Models `pallets/summary/src/utils.rs:38-45`. -/
def cleanup (s : State) (rid : RootId) (ref : Nat) : State :=
  { s with
    extStatus := upd s.extStatus rid none
    extRef := upd s.extRef ref none
    reviews := upd s.reviews rid none }

/-- `admin_resolve_challenge`. Models `pallets/summary/src/lib.rs:751-785`. -/
def adminResolve (s : State) (rid : RootId) (accepted : Bool) (pub : Option Nat) : Except Err State :=
  match s.reviews rid with
  | none => .error .requestNotFound
  | some ref =>
    match getRoot s.roots rid with
    | none => .error .rootDataNotFound
    | some _ =>
      match s.extStatus rid with
      | none => .error .statusMissing
      | some st =>
        if st ≠ .pendingAdminReview then .error .invalidRoot
        else
          match (if accepted then processAccepted s rid pub else .ok s) with
          | .error e => .error e
          | .ok s1 =>
            let s2 := cleanup s1 rid ref
            .ok { s2 with log := s2.log ++ [.resolved rid accepted] }

/-- `setup_root_for_admin_review`. Models `pallets/summary/src/utils.rs:99-112`. -/
def setupReview (s : State) (rid : RootId) (ref : Nat) : State :=
  { s with
    extStatus := upd s.extStatus rid (some .pendingAdminReview)
    reviews := upd s.reviews rid (some ref)
    log := s.log ++ [.reviewRequested rid ref] }

/-- `on_voting_completed`; `ok` says the result is `Expired` or `Resolved { passed: true }`. An error of
`process_accepted_root` leaves only the status write. Models `pallets/summary/src/lib.rs:1568-1611`. -/
def votingCompleted (s : State) (ref : Nat) (ok : Bool) (pub : Option Nat) : State :=
  match s.extRef ref with
  | none => s
  | some rid =>
    if ok then
      match getRoot s.roots rid with
      | none => s
      | some _ =>
        let s1 := { s with extStatus := upd s.extStatus rid (some .accepted) }
        match processAccepted s1 rid pub with
        | .error _ => s1
        | .ok s2 => cleanup s2 rid ref
    else setupReview s rid ref

/-- `on_cancelled`. Models `pallets/summary/src/lib.rs:1613-1622`. -/
def cancelled (s : State) (ref : Nat) : State :=
  match s.extRef ref with
  | none => s
  | some rid => setupReview s rid ref

/-- `process_result`; `mine` says the caller id is this pallet instance's. The success is logged as `finalised`.
Models `pallets/summary/src/lib.rs:1627-1654`. -/
def processResult (s : State) (tx : Nat) (mine succeeded : Bool) : State :=
  if mine then
    match s.txIdToRoot tx with
    | none => s
    | some rid =>
      if succeeded then
        { s with
          roots := mutateRoot s.roots rid (fun d => { d with finalised := true })
          txIdToRoot := upd s.txIdToRoot tx none
          log := s.log ++ [.finalised rid tx] }
      else s
  else s

/-- Everything that can change this state. `environment` is the rest of the chain: block number, author set and
runtime configuration take arbitrary new values. -/
inductive Step where
  | record (newBlock hash ingress who : Nat)
  | vote (rid : RootId) (voter : Nat) (approve : Bool) (pub : Option Nat) (prop : Bool)
  | endVoting (rid : RootId) (who : Nat) (pub : Option Nat) (prop : Bool)
  | advanceSlot (who : Nat)
  | challenge (slot : Option Nat) (challenger challengee who : Nat)
  | setPeriods (sp vp : Nat)
  | setSchedule (sp : Nat)
  | setVoting (vp : Nat)
  | setThreshold (t : Nat)
  | adminResolve (rid : RootId) (accepted : Bool) (pub : Option Nat)
  | votingCompleted (ref : Nat) (ok : Bool) (pub : Option Nat)
  | cancelled (ref : Nat)
  | processResult (tx : Nat) (mine succeeded : Bool)
  | environment (block : Nat) (validators : List Avn.Validator) (auto external : Bool) (grace : Nat)
deriving DecidableEq

/-- A failed call leaves no trace (extrinsics are transactional). -/
def commit (s : State) : Except Err State → State
  | .ok s' => s'
  | .error _ => s

/-- One step; the guards are the parts of `validate_unsigned` that constrain the named validator.
Models `pallets/summary/src/lib.rs:855-891,1456-1532`. -/
def step (refOf : RootId → Nat → Nat) (s : State) : Step → State
  | .record b h k who =>
    if s.slotValidator = some who ∧ Avn.isValidator s.validators who = true then commit s (recordSummary s b h k who) else s
  | .vote rid v a p q => commit s (castVote refOf s rid v a p q)
  | .endVoting rid who p q =>
    if Avn.isValidator s.validators who = true then commit s (endVoting refOf s rid p q) else s
  | .advanceSlot who =>
    if s.slotValidator = some who ∧ Avn.isValidator s.validators who = true then commit s (updateSlot s who) else s
  | .challenge n a b who =>
    if Avn.isValidator s.validators who = true then commit s (addChallenge s n a b who) else s
  | .setPeriods a b => commit s (setPeriods s a b)
  | .setSchedule a => commit s (setSchedule s a)
  | .setVoting a => commit s (setVoting s a)
  | .setThreshold a => commit s (setThreshold s a)
  | .adminResolve rid a p => commit s (adminResolve s rid a p)
  | .votingCompleted r ok p => votingCompleted s r ok p
  | .cancelled r => cancelled s r
  | .processResult tx m ok => processResult s tx m ok
  | .environment b vs a e g => { s with block := b, validators := vs, auto := a, external := e, grace := g }

/-- A history. -/
def run (refOf : RootId → Nat → Nat) (s : State) (steps : List Step) : State := steps.foldl (step refOf) s

/-- `GenesisConfig::build` for valid periods. Models `pallets/summary/src/lib.rs:421-455`. -/
def genesis (sp vp first : Nat) (validators : List Avn.Validator) (auto external : Bool) (grace : Nat) : State where
  nextBlock := 0
  txIdToRoot := fun _ => none
  nextSlotAt := sp
  currentSlot := 0
  slotValidator := some first
  lastSummarySlot := 0
  roots := []
  votes := fun _ => none
  pending := fun _ => none
  totalIngresses := 0
  schedulePeriod := sp
  votingPeriod := vp
  anchorCounter := 0
  anchorRoots := fun _ => none
  extStatus := fun _ => none
  extRef := fun _ => none
  reviews := fun _ => none
  threshold := none
  block := 0
  validators := validators
  auto := auto
  external := external
  grace := grace
  log := []

end Verif.Summary
