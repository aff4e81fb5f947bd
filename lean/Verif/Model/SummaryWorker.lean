import Verif.Model.Summary
import Verif.Model.Merkle
import Verif.Model.Calldata

/-!
# Model of the summary off-chain worker and of the node service it asks for root hashes

One run of the worker of one author node: the transactions it submits for the state it sees. The node's own view of the chain
(which blocks it has, up to which number they are finalised), the storage iteration order of the pending roots, the local locks and
the success of handing a transaction to the pool are arbitrary parts of `Node`. `H` is `keccak_256`. Signing always succeeds (the
key is present); the "once per block" guard is C19's and is not repeated here.
-/

namespace Verif.SummaryWorker

open Verif Verif.Summary

/-- Byte strings. -/
abbrev Bytes := List UInt8

/-- What a node's client answers: the number of its last finalised block and the encoded extrinsics of a block, if it has the
block. Models the uses of `client` in `client/extrinsic-utils/src/extrinsic_utils.rs:89-151`. -/
structure Client where
  finalised : Nat
  block : Nat → Option (List Bytes)

variable (H : Bytes → Bytes)

/-- `process_extrinsics_in_block_and_check_if_filter_target_exists` without a filter, with `get_signed_block`: an unknown block and one
that is not finalised are errors. Models `client/extrinsic-utils/src/extrinsic_utils.rs:62-141`. -/
def blockLeaves (c : Client) (n : Nat) : Option (List Bytes) :=
  match c.block n with
  | none => none
  | some xs => if c.finalised < n then none else some xs

/-- `get_extrinsics`, as a loop from `first` over `count` blocks. Models `client/extrinsic-utils/src/summary_utils.rs:10-31`. -/
def leavesFrom (c : Client) (first : Nat) : Nat → Option (List Bytes)
  | 0 => some []
  | count + 1 => match blockLeaves c first with
    | none => none
    | some xs => match leavesFrom c (first + 1) count with
      | none => none
      | some rest => some (xs ++ rest)

/-- `get_extrinsics` for `from..=to`. Models `client/extrinsic-utils/src/summary_utils.rs:10-31`. -/
def rangeLeaves (c : Client) (fromBlock toBlock : Nat) : Option (List Bytes) :=
  leavesFrom c fromBlock (toBlock + 1 - fromBlock)

/-- The `/roothash/:from_block/:to_block` endpoint; `none` is an error answer. Printing the block numbers into the path and parsing
them is not modelled. Models `client/external-service/src/lib.rs:432-474`. -/
def rootHashAnswer (c : Client) (fromBlock toBlock : Nat) : Option Bytes :=
  match rangeLeaves c fromBlock toBlock with
  | none => none
  | some leaves =>
    if leaves = [] then some (Calldata.hexEncode (List.replicate 32 0))
    else match Merkle.treeRoot H leaves with
      | none => none
      | some root => some (Calldata.hexEncode root)

/-- `validate_response`; the 32 bytes are read as a number. Models `pallets/summary/src/lib.rs:1302-1327`. -/
def validateResponse (response : Bytes) : Option Nat :=
  if response.length ≠ 64 then none
  else match Calldata.hexDecode response with
    | none => none
    | some bytes => some (beVal bytes)

/-- `compute_root_hash`. Models `pallets/summary/src/lib.rs:1022-1051`. -/
def computeRoot (c : Client) (fromBlock toBlock : Nat) : Option Nat :=
  match rootHashAnswer H c fromBlock toBlock with
  | none => none
  | some response => validateResponse response

/-- A node at one run of its worker: its account, its view of the chain, the storage order of the pending ranges, the local locks
that are set and whether the pool takes its transactions. -/
structure Node where
  me : Nat
  client : Client
  order : List Range
  minAge : Nat
  lockedAdvance : Nat → Bool
  lockedCreate : Nat → Bool
  lockedVote : RootId → Bool
  lockedChallenge : Nat → Bool
  poolTakes : RootId → Bool

/-- The unsigned transactions the worker submits. Models the calls submitted in `pallets/summary/src/lib.rs:1253-1286`,
`pallets/summary/src/vote.rs:239-260,290-360`, `pallets/summary/src/challenge.rs:150-190`. -/
inductive Tx where
  | advance
  | record (last hash ingress : Nat)
  | vote (rid : RootId) (approve : Bool)
  | endVoting (rid : RootId)
  | challenge (slot challengee : Nat)
deriving DecidableEq, Repr

/-- The call a transaction of account `me` is, once it is included (`pub`, `prop` are the bridge's and the watchtower's answers
then). -/
def Tx.toStep (me : Nat) (pub : Option Nat) (prop : Bool) : Tx → Step
  | .advance => .advanceSlot me
  | .record last hash ingress => .record last hash ingress me
  | .vote rid approve => .vote rid me approve pub prop
  | .endVoting rid => .endVoting rid me pub prop
  | .challenge slot challengee => .challenge (some slot) me challengee me

/-- `advance_slot_if_required`. Models `pallets/summary/src/lib.rs:1065-1103`. -/
def advanceIfRequired (nd : Node) (s : State) : List Tx :=
  match s.slotValidator with
  | none => []
  | some v =>
    if nd.me = v ∧ s.nextSlotAt ≤ s.block then
      if nd.lockedAdvance s.currentSlot then [] else [.advance]
    else []

/-- `can_process_summary`. Models `pallets/summary/src/lib.rs:1176-1213`. -/
def canProcess (nd : Node) (s : State) (last : Nat) : Bool :=
  if nd.lockedCreate last then false
  else match addBlocks last nd.minAge with
    | .error _ => false
    | .ok aged =>
      decide (s.slotValidator = some nd.me) && decide (s.block < s.nextSlotAt) && decide (s.block > aged) &&
        neitherPendingNorApproved s ⟨s.nextBlock, last⟩

/-- `process_summary_if_required` with `process_summary` and `record_summary` (`get_ingress_counter() + 1` wraps in a release
build). Models `pallets/summary/src/lib.rs:1106-1144,1215-1269`. -/
def proposeIfRequired (nd : Node) (s : State) : List Tx :=
  match targetBlock s with
  | .error _ => []
  | .ok last =>
    if canProcess nd s last then
      match computeRoot H nd.client s.nextBlock last with
      | none => []
      | some hash => [.record last hash (wrapInc64 s.totalIngresses)]
    else []

/-- `MAX_VOTING_SESSIONS_RETURNED`. Models `pallets/summary/src/vote.rs:23`. -/
def maxSessions : Nat := 5

/-- `PendingApproval::iter()` in storage order. -/
def pendingIds (nd : Node) (s : State) : List RootId :=
  nd.order.filterMap (fun r => (s.pending r).map (fun k => ⟨r, k⟩))

/-- `root_can_be_voted_on`. Models `pallets/summary/src/vote.rs:255-268`. -/
def canVoteOn (nd : Node) (s : State) (rid : RootId) : Bool :=
  match s.votes rid with
  | none => false
  | some v => !v.hasVoted nd.me && !nd.lockedVote rid && sessionActive s rid

/-- The loop of `cast_votes_if_required`: the first candidate for which the root hash and the root data are found and the
pool takes the vote. Models `pallets/summary/src/vote.rs:141-190`. -/
def voteLoop (nd : Node) (s : State) : List RootId → List Tx
  | [] => []
  | rid :: rest =>
    match computeRoot H nd.client rid.range.fromBlock rid.range.toBlock with
    | none => voteLoop nd s rest
    | some hash => match getRoot s.roots rid with
      | none => voteLoop nd s rest
      | some d => if nd.poolTakes rid then [.vote rid (decide (hash = d.rootHash))] else voteLoop nd s rest

/-- `cast_votes_if_required`. Models `pallets/summary/src/vote.rs:128-191`. -/
def voteIfRequired (nd : Node) (s : State) : List Tx :=
  voteLoop H nd s (((pendingIds nd s).filter (canVoteOn nd s)).take maxSessions)

/-- The end block `get_vote` reports (a missing session reads as the default, 0). -/
def votingEnd (s : State) (rid : RootId) : Nat :=
  match s.votes rid with
  | none => 0
  | some v => v.endOfVotingPeriod

/-- The loop of `end_voting_if_required`: a missing session stops it. Models `pallets/summary/src/vote.rs:207-252`. -/
def endLoop (s : State) : List RootId → List Tx
  | [] => []
  | rid :: rest => match s.votes rid with
    | none => []
    | some _ => .endVoting rid :: endLoop s rest

/-- `end_voting_if_required`. Models `pallets/summary/src/vote.rs:193-253`. -/
def endIfRequired (nd : Node) (s : State) : List Tx :=
  endLoop s (((pendingIds nd s).filter (fun rid => decide (s.block > votingEnd s rid))).take maxSessions)

/-- `challenge_slot_if_required` with `can_challenge`. Models `pallets/summary/src/challenge.rs:95-148`. -/
def challengeIfRequired (nd : Node) (s : State) : List Tx :=
  match s.slotValidator with
  | none => []
  | some v =>
    if nd.lockedChallenge s.currentSlot then []
    else match Avn.primaryForBlock s.validators s.block with
      | .error _ => []
      | .ok p => if p = nd.me ∧ graceElapsed s = true then [.challenge s.currentSlot v] else []

/-- `offchain_worker`: one run, for a node that is an author. Models `pallets/summary/src/lib.rs:789-816` (without the once-per-block
guard and the question for the finalised block in `pre_run_setup`). -/
def workerRun (nd : Node) (s : State) : List Tx :=
  if Avn.isValidator s.validators nd.me = false then []
  else advanceIfRequired nd s ++ proposeIfRequired H nd s ++ voteIfRequired H nd s ++ endIfRequired nd s ++
    challengeIfRequired nd s

end Verif.SummaryWorker
