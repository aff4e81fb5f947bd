import Verif.Model.Encoding
import Verif.Model.ProxyCalls
import Verif.Model.EventTypes

/-!
# Parsing of Ethereum logs

Models the `parse_bytes` functions of `primitives/avn-common/src/event_types.rs`. A log is its topics (byte strings) and its
data (`None` when the log carries no data). Error codes are reduced to their kind: the code has one constructor per event and
kind, the model one per kind. Slices out of bounds panic in Rust, which is the outcome `panic` here.
-/

namespace Verif.Parsing

open Verif (Bytes Addr Hash)
open Verif.ProxyCalls (U32 U64 U128 U256)
open Verif.Events (ValidEvent)

/-- Kinds of `event_types::Error`. Models `primitives/avn-common/src/event_types.rs:23-80`. -/
inductive PErr where
  | missingData | shouldOnlyContainTopics | badDataLength | wrongTopicCount | badTopicLength | overflow
deriving DecidableEq, Repr

/-- Result of a parser: `Ok`, `Err`, or a panic (slice index out of range). -/
inductive Res (α : Type) where
  | ok (a : α)
  | err (e : PErr)
  | panic
deriving DecidableEq, Repr

/-- `Result::map`. -/
def Res.map {α β : Type} (f : α → β) : Res α → Res β
  | .ok a => .ok (f a)
  | .err e => .err e
  | .panic => .panic

/-- `&l[a..b]` for `a ≤ b ≤ l.len()`. -/
def slice (l : List UInt8) (a b : Nat) : List UInt8 := (l.drop a).take (b - a)

/-- `HN::from_slice(l)` for `l.len() = n`. -/
def fromSlice (n : Nat) (l : List UInt8) : Bytes n := Vector.ofFn fun i => l.getD i.val 0

/-- `uK::from_be_bytes(l)` resp. `U256::from(l)` for `l` of the right length. -/
def beNat (n : Nat) [NeZero n] (l : List UInt8) : Fin n := Fin.ofNat n (beVal l)

/-- `l.iter().any(|byte| byte > &0)`. -/
def anyNonZero (l : List UInt8) : Bool := l.any fun b => decide (b ≠ 0)

/-- `AddedValidatorData`. Models `primitives/avn-common/src/event_types.rs:210-214`. -/
structure AddedValidatorData where
  ethPublicKey : Bytes 64
  t2Address : Hash
  validatorAccountId : U256
deriving DecidableEq

/-- `LiftedData`. Models `primitives/avn-common/src/event_types.rs:275-281`. -/
structure LiftedData where
  tokenContract : Addr
  senderAddress : Addr
  receiverAddress : Hash
  amount : U128
  nonce : U256
deriving DecidableEq

/-- `NftMintData`; the two deprecated fields (always zero) are left out.
Models `primitives/avn-common/src/event_types.rs:419-428`. -/
structure NftMintData where
  batchId : U256
  owner : Hash
  saleIndex : U64
  ref : List UInt8
deriving DecidableEq

/-- `NftTransferToData`. Models `primitives/avn-common/src/event_types.rs:501-505`. -/
structure NftTransferToData where
  nftId : U256
  transferTo : Hash
  opId : U64
deriving DecidableEq

/-- `NftCancelListingData`. Models `primitives/avn-common/src/event_types.rs:554-557`. -/
structure NftCancelListingData where
  nftId : U256
  opId : U64
deriving DecidableEq

/-- `NftEndBatchListingData`. Models `primitives/avn-common/src/event_types.rs:606-608`. -/
structure NftEndBatchListingData where
  batchId : U256
deriving DecidableEq

/-- `AvtGrowthLiftedData`. Models `primitives/avn-common/src/event_types.rs:645-648`. -/
structure AvtGrowthLiftedData where
  amount : U128
  period : U32
deriving DecidableEq

/-- `AvtLowerClaimedData`. Models `primitives/avn-common/src/event_types.rs:703-705`. -/
structure AvtLowerClaimedData where
  lowerId : U32
deriving DecidableEq

/-- `LowerRevertedData`. Models `primitives/avn-common/src/event_types.rs:734-740`. -/
structure LowerRevertedData where
  tokenContract : Addr
  receiverAddress : Hash
  t1Recipient : Addr
  amount : U128
  lowerId : U32
deriving DecidableEq

/-- `EventData` (without `EmptyEvent`, which no parser returns). Models `primitives/avn-common/src/event_types.rs:818-831`. -/
inductive EventData where
  | addedValidator (d : AddedValidatorData)
  | lifted (d : LiftedData)
  | nftMinted (d : NftMintData)
  | nftTransferTo (d : NftTransferToData)
  | nftCancelListing (d : NftCancelListingData)
  | nftEndBatchListing (d : NftEndBatchListingData)
  | avtGrowthLifted (d : AvtGrowthLiftedData)
  | lowerClaimed (d : AvtLowerClaimedData)
  | lowerReverted (d : LowerRevertedData)
  | liftedToPredictionMarket (d : LiftedData)
  | erc20Transfer (d : LiftedData)
deriving DecidableEq

/-- `topics[i]` (the callers have checked the number of topics). -/
def topic (topics : List (List UInt8)) (i : Nat) : List UInt8 := topics.getD i []

/-- `AddedValidatorData::parse_bytes`. Models `primitives/avn-common/src/event_types.rs:227-269`. -/
def parseAddedValidator (data : Option (List UInt8)) (topics : List (List UInt8)) : Res AddedValidatorData :=
  match data with
  | none => .err .missingData
  | some data =>
    if data.length ≠ 32 then .err .badDataLength
    else if topics.length ≠ 4 then .err .wrongTopicCount
    else if (topic topics 1).length ≠ 32 ∨ (topic topics 2).length ≠ 32 ∨ (topic topics 3).length ≠ 32 then .err .badTopicLength
    else .ok { ethPublicKey := fromSlice 64 (topic topics 1 ++ topic topics 2)
               t2Address := fromSlice 32 (topic topics 3)
               validatorAccountId := beNat (2 ^ 256) data }

/-- `LiftedData::parse_bytes`. Models `primitives/avn-common/src/event_types.rs:301-352`. -/
def parseLifted (data : Option (List UInt8)) (topics : List (List UInt8)) : Res LiftedData :=
  match data with
  | none => .err .missingData
  | some data =>
    if data.length ≠ 32 then .err .badDataLength
    else if topics.length ≠ 3 then .err .wrongTopicCount
    else if (topic topics 1).length ≠ 32 ∨ (topic topics 2).length ≠ 32 then .err .badTopicLength
    else if anyNonZero (slice data 0 16) then .err .overflow
    else .ok { tokenContract := fromSlice 20 (slice (topic topics 1) 12 32)
               senderAddress := Vector.replicate 20 0
               receiverAddress := fromSlice 32 (topic topics 2)
               amount := beNat (2 ^ 128) (slice data 16 32)
               nonce := 0 }

/-- `LiftedData::from_erc_20_contract_transfer_bytes`. The receiver is the bridge contract's address widened to 32 bytes
(`H256::from(H160)`: twelve zero bytes in front).
Models `primitives/avn-common/src/event_types.rs:359-415`. -/
def parseErc20 (data : Option (List UInt8)) (topics : List (List UInt8)) : Res LiftedData :=
  match data with
  | none => .err .missingData
  | some data =>
    if data.length ≠ 32 then .err .badDataLength
    else if topics.length ≠ 3 then .err .wrongTopicCount
    else if (topic topics 2).length ≠ 32 ∨ (topic topics 1).length ≠ 32 then .err .badTopicLength
    else if anyNonZero (slice data 0 16) then .err .overflow
    else .ok { tokenContract := Vector.replicate 20 0
               senderAddress := fromSlice 20 (slice (topic topics 1) 12 32)
               receiverAddress := fromSlice 32 (List.replicate 12 0 ++ slice (topic topics 2) 12 32)
               amount := beNat (2 ^ 128) (slice data 16 32)
               nonce := 0 }

/-- `NftMintData::parse_bytes`. The `BoundedVec` bound (1024) cannot be hit by 36 bytes.
Models `primitives/avn-common/src/event_types.rs:441-497`. -/
def parseNftMint (data : Option (List UInt8)) (topics : List (List UInt8)) : Res NftMintData :=
  match data with
  | none => .err .missingData
  | some data =>
    if data.length ≠ 4 * 32 then .err .badDataLength
    else if topics.length ≠ 4 then .err .wrongTopicCount
    else if (topic topics 1).length ≠ 32 ∨ (topic topics 3).length ≠ 32 ∨ (topic topics 2).length ≠ 32 then .err .badTopicLength
    else .ok { batchId := beNat (2 ^ 256) (topic topics 1)
               owner := fromSlice 32 (topic topics 3)
               saleIndex := beNat (2 ^ 64) (slice (topic topics 2) 24 32)
               ref := slice data 64 100 }

/-- `NftTransferToData::parse_bytes`. Models `primitives/avn-common/src/event_types.rs:516-550`. -/
def parseNftTransferTo (data : Option (List UInt8)) (topics : List (List UInt8)) : Res NftTransferToData :=
  match data with
  | some _ => .err .shouldOnlyContainTopics
  | none =>
    if topics.length ≠ 4 then .err .wrongTopicCount
    else if (topic topics 1).length ≠ 32 ∨ (topic topics 2).length ≠ 32 ∨ (topic topics 3).length ≠ 32 then .err .badTopicLength
    else .ok { nftId := beNat (2 ^ 256) (topic topics 1)
               transferTo := fromSlice 32 (topic topics 2)
               opId := beNat (2 ^ 64) (slice (topic topics 3) 24 32) }

/-- `NftCancelListingData::parse_bytes`. The length of the `op_id` topic is not checked: slicing `[0..24]` and `[24..32]`
panics when it is shorter than 32 bytes (the overflow check on the first 24 bytes comes in between).
Models `primitives/avn-common/src/event_types.rs:567-602`. -/
def parseNftCancelListing (data : Option (List UInt8)) (topics : List (List UInt8)) : Res NftCancelListingData :=
  match data with
  | some _ => .err .shouldOnlyContainTopics
  | none =>
    if topics.length ≠ 3 then .err .wrongTopicCount
    else if (topic topics 1).length ≠ 32 then .err .badTopicLength
    else if (topic topics 2).length < 24 then .panic
    else if anyNonZero (slice (topic topics 2) 0 24) then .err .overflow
    else if (topic topics 2).length < 32 then .panic
    else .ok { nftId := beNat (2 ^ 256) (topic topics 1)
               opId := beNat (2 ^ 64) (slice (topic topics 2) 24 32) }

/-- `NftEndBatchListingData::parse_bytes`. Models `primitives/avn-common/src/event_types.rs:617-639`. -/
def parseNftEndBatchListing (data : Option (List UInt8)) (topics : List (List UInt8)) : Res NftEndBatchListingData :=
  match data with
  | some _ => .err .shouldOnlyContainTopics
  | none =>
    if topics.length ≠ 2 then .err .wrongTopicCount
    else if (topic topics 1).length ≠ 32 then .err .badTopicLength
    else .ok { batchId := beNat (2 ^ 256) (topic topics 1) }

/-- `AvtGrowthLiftedData::parse_bytes`. Models `primitives/avn-common/src/event_types.rs:658-697`. -/
def parseAvtGrowthLifted (data : Option (List UInt8)) (topics : List (List UInt8)) : Res AvtGrowthLiftedData :=
  match data with
  | some _ => .err .shouldOnlyContainTopics
  | none =>
    if topics.length ≠ 3 then .err .wrongTopicCount
    else if (topic topics 1).length ≠ 32 ∨ (topic topics 2).length ≠ 32 then .err .badTopicLength
    else if anyNonZero (slice (topic topics 1) 0 16) then .err .overflow
    else .ok { amount := beNat (2 ^ 128) (slice (topic topics 1) 16 32)
               period := beNat (2 ^ 32) (slice (topic topics 2) 28 32) }

/-- `AvtLowerClaimedData::parse_bytes` (the error for unwanted data is named `MissingData` in the code).
Models `primitives/avn-common/src/event_types.rs:710-730`. -/
def parseAvtLowerClaimed (data : Option (List UInt8)) (topics : List (List UInt8)) : Res AvtLowerClaimedData :=
  match data with
  | some _ => .err .missingData
  | none =>
    if topics.length ≠ 2 then .err .wrongTopicCount
    else if (topic topics 1).length ≠ 32 then .err .badTopicLength
    else .ok { lowerId := beNat (2 ^ 32) (slice (topic topics 1) 28 32) }

/-- `LowerRevertedData::parse_bytes`. Models `primitives/avn-common/src/event_types.rs:751-814`. -/
def parseLowerReverted (data : Option (List UInt8)) (topics : List (List UInt8)) : Res LowerRevertedData :=
  match data with
  | none => .err .missingData
  | some data =>
    if data.length ≠ 2 * 32 then .err .badDataLength
    else if topics.length ≠ 4 then .err .wrongTopicCount
    else if (topic topics 1).length ≠ 32 ∨ (topic topics 2).length ≠ 32 ∨ (topic topics 3).length ≠ 32 then .err .badTopicLength
    else if anyNonZero (slice (slice data 0 32) 0 16) then .err .overflow
    else .ok { tokenContract := fromSlice 20 (slice (topic topics 1) 12 32)
               receiverAddress := fromSlice 32 (topic topics 2)
               t1Recipient := fromSlice 20 (slice (topic topics 3) 12 32)
               amount := beNat (2 ^ 128) (slice (slice data 0 32) 16 32)
               lowerId := beNat (2 ^ 32) (slice (slice data 32 64) 28 32) }

/-- The parser registered for an event kind (`EventRegistry::new`).
Models `client/external-service/src/ethereum_events_handler.rs:66-190`. -/
def parse (k : ValidEvent) (data : Option (List UInt8)) (topics : List (List UInt8)) : Res EventData :=
  match k with
  | .addedValidator => (parseAddedValidator data topics).map .addedValidator
  | .lifted => (parseLifted data topics).map .lifted
  | .nftMint => (parseNftMint data topics).map .nftMinted
  | .nftTransferTo => (parseNftTransferTo data topics).map .nftTransferTo
  | .nftCancelListing => (parseNftCancelListing data topics).map .nftCancelListing
  | .nftEndBatchListing => (parseNftEndBatchListing data topics).map .nftEndBatchListing
  | .avtGrowthLifted => (parseAvtGrowthLifted data topics).map .avtGrowthLifted
  | .avtLowerClaimed => (parseAvtLowerClaimed data topics).map .lowerClaimed
  | .lowerReverted => (parseLowerReverted data topics).map .lowerReverted
  | .liftedToPredictionMarket => (parseLifted data topics).map .liftedToPredictionMarket
  | .erc20DirectTransfer => (parseErc20 data topics).map .erc20Transfer

end Verif.Parsing
