import Verif.Model.Basic

/-!
# Ethereum event kinds and filters

Models `ValidEvents` of `primitives/avn-common/src/event_types.rs` and the event filters of
`primitives/avn-common/src/event_discovery.rs`. Thirty-two byte hashes (`H256`) are read as big-endian numbers;
the lexicographic byte order of `H256` is the order of these numbers.
-/

namespace Verif.Events

/-- `ValidEvents`. Models `primitives/avn-common/src/event_types.rs:96-119`. -/
inductive ValidEvent where
  | addedValidator | lifted | nftMint | nftTransferTo | nftCancelListing | nftEndBatchListing
  | avtGrowthLifted | avtLowerClaimed | liftedToPredictionMarket | erc20DirectTransfer | lowerReverted
deriving DecidableEq, Repr

open ValidEvent

/-- `ValidEvents::values` (declaration order). Models `primitives/avn-common/src/event_types.rs:185-187`. -/
def values : List ValidEvent :=
  [addedValidator, lifted, nftMint, nftTransferTo, nftCancelListing, nftEndBatchListing,
   avtGrowthLifted, avtLowerClaimed, liftedToPredictionMarket, erc20DirectTransfer, lowerReverted]

/-- `ValidEvents::signature`. Models `primitives/avn-common/src/event_types.rs:122-173`. -/
def signature : ValidEvent → Nat
  | addedValidator => 0xff083a6e395a67771f3c9108922bc274c27b38b48c210b0f6a8c5f4710c0494b
  | lifted => 0x418da8f85cfa851601f87634c6950491b6b8785a6445c8584f5658048d512cae
  | liftedToPredictionMarket => 0x2bf8107bf8c15cdcd8d6360f4a02ee97d7098a46b18fccd32df8796775552fc0
  | nftMint => 0x242e8a2c5335295f6294a23543699a458e6d5ed7a5839f93cc420116e0a31f99
  | nftTransferTo => 0xfff226ba128aca9718a568817388f3711cfeedd8c81cec4d02dcefc50f3c67bb
  | nftCancelListing => 0xeb0a71ca01b1505be834cafcd54b651d77eafd1ca915d21c0898575bcab53358
  | nftEndBatchListing => 0x20c46236a16e176bc83a795b3a64ad94e5db8bc92afc8cc6d3fd4a3864211f8f
  | avtGrowthLifted => 0x3ad58a8dc1110baa37ad88a68db14181b4ef0c69192dfa7699a9588960eca7fd
  | avtLowerClaimed => 0x9853e4c075911a10a89a0f7a46bac6f8a246c4e9152480d16d86aa6a2391a4f1
  | erc20DirectTransfer => 0xddf252ad1be2c89b69c2b068fc378daa952ba7f163c4a11628f55a4df523b3ef
  | lowerReverted => 0x3a534ee35b9cf37cfa5e5aac24f8d0d3a2a2841b1ff92db68501d3c46956daa8

/-- `LEGACY_LIFT_SIGNATURE`. Models `primitives/avn-common/src/event_types.rs:17-20`. -/
def legacyLiftSignatures : List Nat :=
  [0x8964776336bc2fa8ecaaf70b6f8e8450807efb1ff78f8b87980707aa821f0ec0,
   0x53dbd0621188344e69521ce5392debdff038d57d0ebd39536df06b20d9142bc0]

/-- `ValidEvents::try_from(&H256)`: first kind with that signature.
Models `primitives/avn-common/src/event_types.rs:197-207`. -/
def tryFrom (sig : Nat) : Option ValidEvent := values.find? (fun e => signature e == sig)

/-- `ValidEvents::is_nft_event`. Models `primitives/avn-common/src/event_types.rs:175-183`. -/
def isNft : ValidEvent → Bool
  | nftMint | nftTransferTo | nftCancelListing | nftEndBatchListing => true
  | _ => false

/-- `ValidEvents::is_primary`. Models `primitives/avn-common/src/event_types.rs:189-194`. -/
def isPrimary : ValidEvent → Bool
  | erc20DirectTransfer => false
  | _ => true

/-- `NftEventsFilter::get`. Models `primitives/avn-common/src/event_discovery.rs:163-170`. -/
def nftFilter : List ValidEvent := values.filter isNft

/-- `CorePrimaryEventsFilter::get`: everything that is not an NFT event, primary only.
Models `primitives/avn-common/src/event_discovery.rs:117-130,172-179`. -/
def corePrimaryFilter : List ValidEvent := (values.filter (fun e => !nftFilter.contains e)).filter isPrimary

end Verif.Events
