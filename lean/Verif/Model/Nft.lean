import Verif.Model.ProxyCalls

/-!
# NFT manager
pallets/nft-manager/src/{lib,batch_nft,nft_data}.rs
-/

namespace Verif.Nft
open Verif.ProxyCalls

/-- nft_data.rs:135-145 `NftSaleType`. -/
inductive Market where
  | unknown | ethereum | fiat
deriving DecidableEq

/-- SCALE index of the market. -/
def Market.byte : Market → UInt8
  | .unknown => 0
  | .ethereum => 1
  | .fiat => 2

/-- nft_data.rs:45-60 `Nft` (the id is the map key). -/
structure Nft where
  infoId : Nat
  extRef : List UInt8
  nonce : U64
  owner : Acct
  isLocked : Bool
deriving DecidableEq

/-- nft_data.rs:81-98 `NftInfo`. -/
structure Info where
  batchId : Option U256
  royalties : List Royalty
  supply : U64
  t1 : Addr
  creator : Option Acct
deriving DecidableEq

/-- What an extrinsic or Ethereum event did. -/
inductive What where
  /-- `SingleNftMinted` / `BatchNftMinted` (lib.rs:156-167). -/
  | minted (id : U256) (extRef : List UInt8) (owner : Acct) (batch : Option U256) (market : Market)
  /-- `NftOpenForSale` (lib.rs:169). -/
  | listed (id : U256) (market : Market)
  /-- `EthNftTransfer` / `FiatNftTransfer` (lib.rs:179-193). -/
  | transferred (id : U256) (old new : Acct) (market : Market) (nonce : U64)
  /-- `CancelSingleEthNftListing` / `CancelSingleFiatNftListing` (lib.rs:195-206). -/
  | unlisted (id : U256) (market : Market) (nonce : U64)
  /-- `BatchCreated` (lib.rs:213). -/
  | batchCreated (id : U256) (supply : U64) (creator : Acct)
  /-- `BatchOpenForSale` (lib.rs:174). -/
  | batchListed (id : U256) (market : Market)
  /-- `BatchSaleEnded` (lib.rs:220). -/
  | batchEnded (id : U256) (market : Market)
deriving DecidableEq

/-- One entry per successful extrinsic or event; `auth` is the proxied call and the payload bytes its signature was verified over. -/
structure Obs where
  what : What
  auth : Option (Call × List UInt8)

/-- Storage (lib.rs:283-341). `batchInfo` and the listings have defaults in the code, read with `getD`. Info and unique ids are
`U256` counters whose overflow panics; they are not bounded here. -/
structure State where
  nfts : U256 → Option Nft
  infos : Nat → Option Info
  batches : U256 → List U256
  batchInfo : U256 → Option Nat
  refs : List UInt8 → Bool
  nextInfo : Nat
  nextUnique : Nat
  listed : U256 → Option Market
  batchNonce : Acct → U64
  batchListed : U256 → Option Market
  log : List Obs

/-- The errors of lib.rs:227-281 that the modelled functions return. -/
inductive Err where
  | nftAlreadyExists | royaltyRateIsNotValid | totalRoyaltyRateIsNotValid | t1AuthorityIsMandatory | externalRefIsMandatory
  | externalRefIsAlreadyInUse | nftInfoMissing | nftIdDoesNotExist | unsupportedMarket | senderIsNotSigner | senderIsNotOwner
  | nftAlreadyListed | nftIsLocked | nftNotListedForSale | nftNotListedForEthereumSale | nftNotListedForFiatSale
  | noTier1Event | nftNonceMismatch | unauthorized | transferToIsMandatory | batchAlreadyExists | totalSupplyZero
  | batchIdIsMandatory | batchDoesNotExist | senderIsNotBatchCreator | totalSupplyExceeded | batchAlreadyListed | noNftsToSell
  | batchNotListed | batchNotListedForFiatSale | batchNotListedForEthereumSale | externalRefOutOfBounds | royaltiesOutOfBounds
  | batchOutOfBounds
deriving DecidableEq

/-- A result with the state as written so far: extrinsics discard it on an error (FRAME), the event path keeps it. -/
abbrev Res := State × Option Err

/-- `NftExternalRefBound` (primitives/avn-common/src/lib.rs:76). -/
def refBound : Nat := 1024
/-- `BatchNftBound` (lib.rs:86; runtime/avn/src/configs/mod.rs:473). -/
def batchBound : Nat := 16384
/-- `MAX_NUMBER_OF_ROYALTIES` (lib.rs:76). -/
def maxRoyalties : Nat := 16
/-- `ROYALTY_RATE_DENOMINATOR` (nft_data.rs:22). -/
def million : Nat := 1000000

/-- lib.rs:820-830 `validate_royalties`; `sum::<u32>` wraps in release builds. -/
def validateRoyalties (r : List Royalty) : Option Err :=
  if r.any (fun x => !(decide (x.ppm.val ≤ million))) then some .royaltyRateIsNotValid
  else if (r.map (·.ppm.val)).sum % pow32 ≤ million then none
  else some .totalRoyaltyRateIsNotValid

/-- lib.rs:808-818 `validate_external_ref`. -/
def validateRef (s : State) (r : List UInt8) : Option Err :=
  if r = [] then some .externalRefIsMandatory else if s.refs r then some .externalRefIsAlreadyInUse else none

/-- `U256::from(hash)`: big-endian. -/
def idOf (h : Hash) : U256 := Fin.ofNat _ (beVal h.toList)

/-- lib.rs:902-914 `generate_nft_id_single_mint`; `keccak` is arbitrary. -/
def singleId (keccak : List UInt8 → Hash) (t1 : Addr) (unique : Nat) : U256 :=
  idOf (keccak (ascii "A" ++ t1.toList ++ beBytes 32 unique))

/-- batch_nft.rs:37-46 `generate_batch_id`. -/
def batchIdOf (keccak : List UInt8 → Hash) (unique : Nat) : U256 := idOf (keccak (ascii "G" ++ beBytes 32 unique))

/-- batch_nft.rs:50-61 `generate_batch_nft_id`. -/
def batchNftId (keccak : List UInt8 → Hash) (batch : U256) (index : U64) : U256 :=
  idOf (keccak (ascii "B" ++ beBytes 32 batch.val ++ beBytes 8 index.val))

/-- The nonces the NFT payloads read. -/
def view (s : State) : Nonces :=
  { token := fun _ => 0, ethEvents := fun _ => 0, staking := fun _ => 0, batch := s.batchNonce,
    nft := fun i => (s.nfts i).map (·.nonce), chainOf := fun _ => none, chain := fun _ => 0 }

/-- `verify_signature(&proof, &signed_payload)` with the payload of the call in the current state: the bytes, if it verifies
(e.g. lib.rs:413-424). -/
def authorise (cr : Crypto) (s : State) (c : Call) : Option (List UInt8) :=
  match c.proof?, payload (view s) c with
  | some p, some m => if verifySignature cr p m then some m else none
  | _, _ => none

/-- `Nfts::mutate(id, |nft| ..)` (lib.rs:897, 957-962, 999). -/
def mutateNft (f : Nft → Nft) (id : U256) (s : State) : State := { s with nfts := upd s.nfts id ((s.nfts id).map f) }

/-- Append to the log. -/
def note (w : What) (auth : Option (Call × List UInt8)) (s : State) : State := { s with log := s.log ++ [⟨w, auth⟩] }

/-- lib.rs:795-806 `validate_mint_single_nft_request`, with the external reference's bound (lib.rs:355-357). -/
def validateMintSingle (s : State) (extRef : List UInt8) (roy : List Royalty) (t1 : Addr) : Option Err :=
  if refBound < extRef.length then some .externalRefOutOfBounds
  else if t1 = Vector.replicate 20 0 then some .t1AuthorityIsMandatory
  else match validateRef s extRef with
    | some e => some e
    | none => validateRoyalties roy

/-- lib.rs:364-384 (and 426-442): the id, the record and the event of a single mint, after validation;
`insert_single_nft_into_chain` (lib.rs:878-893), `add_nft` (lib.rs:967-970). -/
def mintSingleCore (keccak : List UInt8 → Hash) (owner : Acct) (extRef : List UInt8) (roy : List Royalty) (t1 : Addr)
    (auth : Option (Call × List UInt8)) (s : State) : Res :=
  let id := singleId keccak t1 s.nextUnique
  if (s.nfts id).isSome then (s, some .nftAlreadyExists)
  else if maxRoyalties < roy.length then (s, some .royaltiesOutOfBounds)
  else
    (note (.minted id extRef owner none .unknown) auth
      { s with
        nextUnique := s.nextUnique + 1
        nextInfo := s.nextInfo + 1
        infos := upd s.infos s.nextInfo (some ⟨none, roy, 1, t1, none⟩)
        nfts := upd s.nfts id (some ⟨s.nextInfo, extRef, 0, owner, false⟩)
        refs := upd s.refs extRef true }, none)

/-- lib.rs:347-387 `mint_single_nft`. -/
def mintSingle (keccak : List UInt8 → Hash) (sender : Acct) (extRef : List UInt8) (roy : List Royalty) (t1 : Addr) (s : State) : Res :=
  match validateMintSingle s extRef roy t1 with
  | some e => (s, some e)
  | none => mintSingleCore keccak sender extRef roy t1 none s

/-- lib.rs:392-445 `signed_mint_single_nft`. -/
def signedMintSingle (cr : Crypto) (keccak : List UInt8 → Hash) (sender : Acct) (p : Proof) (extRef : SVec UInt8) (roy : SVec Royalty)
    (t1 : Addr) (s : State) : Res :=
  if sender ≠ p.signer then (s, some .senderIsNotSigner)
  else match validateMintSingle s extRef.val roy.val t1 with
    | some e => (s, some e)
    | none =>
      match authorise cr s (.mintSingleNft p extRef roy t1) with
      | none => (s, some .unauthorized)
      | some m => mintSingleCore keccak p.signer extRef.val roy.val t1 (some (.mintSingleNft p extRef roy t1, m)) s

/-- lib.rs:832-846 `validate_open_for_sale_request`. -/
def validateOpen (s : State) (sender : Acct) (id : U256) (m : Market) : Option Err :=
  if m = .unknown then some .unsupportedMarket
  else match s.nfts id with
    | none => some .nftIdDoesNotExist
    | some nft =>
      if (s.listed id).isSome then some .nftAlreadyListed
      else if nft.owner ≠ sender then some .senderIsNotOwner
      else if nft.isLocked then some .nftIsLocked
      else none

/-- Nonce `+ 1` (wraps in release builds). -/
def bump (n : Nft) : Nft := { n with nonce := n.nonce + 1 }

/-- lib.rs:895-898 `open_nft_for_sale`, and the event. -/
def openForSale (id : U256) (m : Market) (auth : Option (Call × List UInt8)) (s : State) : State :=
  note (.listed id m) auth (mutateNft bump id { s with listed := upd s.listed id (some m) })

/-- lib.rs:450-460 `list_nft_open_for_sale`. -/
def list (sender : Acct) (id : U256) (m : Market) (s : State) : Res :=
  match validateOpen s sender id m with
  | some e => (s, some e)
  | none => (openForSale id m none s, none)

/-- lib.rs:465-486 `signed_list_nft_open_for_sale`. -/
def signedList (cr : Crypto) (sender : Acct) (p : Proof) (id : U256) (m : Market) (s : State) : Res :=
  if sender ≠ p.signer then (s, some .senderIsNotSigner)
  else match validateOpen s sender id m with
    | some e => (s, some e)
    | none =>
      match authorise cr s (.listNft p id m.byte) with
      | none => (s, some .unauthorized)
      | some b => (openForSale id m (some (.listNft p id m.byte, b)) s, none)

/-- lib.rs:848-861 `validate_nft_open_for_fiat_sale`; on success also `try_get_nft` (lib.rs:505, 542). -/
def validateFiat (s : State) (sender : Acct) (id : U256) : Except Err Nft :=
  if (s.listed id).isNone then .error .nftNotListedForSale
  else if (s.listed id).getD .unknown ≠ .fiat then .error .nftNotListedForFiatSale
  else match s.nfts id with
    | none => .error .nftIdDoesNotExist
    | some nft =>
      if nft.owner ≠ sender then .error .senderIsNotOwner
      else if nft.isLocked then .error .nftIsLocked
      else .ok nft

/-- lib.rs:948-952 `transfer_nft` and lib.rs:956-963 `update_owner_for_transfer` (with lib.rs:916-920 `remove_listing_from_open_for_sale`). -/
def transferNft (id : U256) (new : Acct) (s : State) : Res :=
  if (s.listed id).isNone then (s, some .nftNotListedForSale)
  else (mutateNft (fun n => { n with owner := new, nonce := n.nonce + 1 }) id { s with listed := upd s.listed id none }, none)

/-- lib.rs:997-1002 `unlist_nft_for_sale`. -/
def unlistNft (id : U256) (s : State) : Res :=
  if (s.listed id).isNone then (s, some .nftNotListedForSale)
  else (mutateNft bump id { s with listed := upd s.listed id none }, none)

/-- lib.rs:491-528 `signed_transfer_fiat_nft`; the recipient's public key is its account id. -/
def transferFiat (cr : Crypto) (sender : Acct) (p : Proof) (id : U256) (dst : Hash) (s : State) : Res :=
  if sender ≠ p.signer then (s, some .senderIsNotSigner)
  else if dst = Vector.replicate 32 0 then (s, some .transferToIsMandatory)
  else match validateFiat s sender id with
    | .error e => (s, some e)
    | .ok nft =>
      match authorise cr s (.transferFiatNft p id dst) with
      | none => (s, some .unauthorized)
      | some b =>
        match transferNft id dst s with
        | (s1, some e) => (s1, some e)
        | (s1, none) =>
          (note (.transferred id sender dst ((s.listed id).getD .unknown) nft.nonce) (some (.transferFiatNft p id dst, b)) s1, none)

/-- lib.rs:533-560 `signed_cancel_list_fiat_nft`. -/
def cancelFiat (cr : Crypto) (sender : Acct) (p : Proof) (id : U256) (s : State) : Res :=
  if sender ≠ p.signer then (s, some .senderIsNotSigner)
  else match validateFiat s sender id with
    | .error e => (s, some e)
    | .ok nft =>
      match authorise cr s (.cancelListNft p id) with
      | none => (s, some .unauthorized)
      | some b =>
        match unlistNft id s with
        | (s1, some e) => (s1, some e)
        | (s1, none) => (note (.unlisted id ((s.listed id).getD .unknown) nft.nonce) (some (.cancelListNft p id, b)) s1, none)

/-- lib.rs:922-946 `transfer_eth_nft`; `known` is `processed_event_exists`. -/
def ethTransfer (known : Bool) (id : U256) (dst : Hash) (opId : U64) (s : State) : Res :=
  if (s.listed id).getD .unknown ≠ .ethereum then (s, some .nftNotListedForEthereumSale)
  else match s.nfts id with
    | none => (s, some .nftIdDoesNotExist)
    | some nft =>
      if opId ≠ nft.nonce then (s, some .nftNonceMismatch)
      else if ¬ known then (s, some .noTier1Event)
      else
        match transferNft id dst s with
        | (s1, some e) => (s1, some e)
        | (s1, none) => (note (.transferred id nft.owner dst ((s.listed id).getD .unknown) opId) none s1, none)

/-- lib.rs:972-995 `cancel_eth_nft_listing`. -/
def ethCancel (known : Bool) (id : U256) (opId : U64) (s : State) : Res :=
  match s.nfts id with
  | none => (s, some .nftIdDoesNotExist)
  | some nft =>
    if (s.listed id).getD .unknown ≠ .ethereum then (s, some .nftNotListedForEthereumSale)
    else if opId ≠ nft.nonce then (s, some .nftNonceMismatch)
    else if ¬ known then (s, some .noTier1Event)
    else
      match unlistNft id s with
      | (s1, some e) => (s1, some e)
      | (s1, none) => (note (.unlisted id ((s.listed id).getD .unknown) opId) none s1, none)

/-- lib.rs:594-650 `signed_create_batch` with `create_batch` (batch_nft.rs:72-84). -/
def createBatch (cr : Crypto) (keccak : List UInt8 → Hash) (sender : Acct) (p : Proof) (supply : U64) (roy : SVec Royalty) (t1 : Addr)
    (s : State) : Res :=
  if sender ≠ p.signer then (s, some .senderIsNotSigner)
  else if t1 = Vector.replicate 20 0 then (s, some .t1AuthorityIsMandatory)
  else if supply.val = 0 then (s, some .totalSupplyZero)
  else if batchBound < supply.val then (s, some .batchOutOfBounds)
  else match validateRoyalties roy.val with
    | some e => (s, some e)
    | none =>
      match authorise cr s (.createBatch p supply roy t1) with
      | none => (s, some .unauthorized)
      | some b =>
        let id := batchIdOf keccak s.nextUnique
        if (s.batchInfo id).isSome then (s, some .batchAlreadyExists)
        else if maxRoyalties < roy.val.length then (s, some .royaltiesOutOfBounds)
        else
          (note (.batchCreated id supply sender) (some (.createBatch p supply roy t1, b))
            { s with
              nextUnique := s.nextUnique + 1
              nextInfo := s.nextInfo + 1
              infos := upd s.infos s.nextInfo (some ⟨some id, roy.val, supply, t1, some sender⟩)
              batchInfo := upd s.batchInfo id (some s.nextInfo)
              batchNonce := upd s.batchNonce sender (s.batchNonce sender + 1) }, none)

/-- batch_nft.rs:63-70 `get_nft_info_for_batch`. -/
def infoForBatch (s : State) (batch : U256) : Option Info := s.infos ((s.batchInfo batch).getD 0)

/-- batch_nft.rs:163-180 `validate_mint_batch_nft_request`. -/
def validateMintBatch (s : State) (batch : U256) (extRef : List UInt8) : Except Err Info :=
  if batch = 0 then .error .batchIdIsMandatory
  else if (s.batchInfo batch).isNone then .error .batchDoesNotExist
  else if (s.batchListed batch).isNone then .error .batchNotListed
  else match infoForBatch s batch with
    | none => .error .nftInfoMissing
    | some info =>
      if info.supply.val ≤ (s.batches batch).length then .error .totalSupplyExceeded
      else match validateRef s extRef with
        | some e => .error e
        | none => .ok info

/-- batch_nft.rs:182-207 `mint_batch_nft`. When the batch is full after the NFT was added, the NFT stays (only the event path
keeps this; shown unreachable). -/
def mintBatchNft (keccak : List UInt8 → Hash) (batch : U256) (owner : Acct) (index : U64) (extRef : List UInt8) (market : Market)
    (auth : Option (Call × List UInt8)) (s : State) : Res :=
  match validateMintBatch s batch extRef with
  | .error e => (s, some e)
  | .ok _ =>
    let id := batchNftId keccak batch index
    if (s.nfts id).isSome then (s, some .nftAlreadyExists)
    else
      let s1 := { s with
        nfts := upd s.nfts id (some ⟨(s.batchInfo batch).getD 0, extRef, 0, owner, false⟩)
        refs := upd s.refs extRef true }
      if batchBound ≤ (s.batches batch).length then (s1, some .batchOutOfBounds)
      else (note (.minted id extRef owner (some batch) market) auth { s1 with batches := upd s1.batches batch (s1.batches batch ++ [id]) }, none)

/-- lib.rs:655-693 `signed_mint_batch_nft`. -/
def signedMintBatch (cr : Crypto) (keccak : List UInt8 → Hash) (sender : Acct) (p : Proof) (batch : U256) (index : U64) (owner : Acct)
    (extRef : SVec UInt8) (s : State) : Res :=
  if sender ≠ p.signer then (s, some .senderIsNotSigner)
  else if refBound < extRef.val.length then (s, some .externalRefOutOfBounds)
  else match validateMintBatch s batch extRef.val with
    | .error e => (s, some e)
    | .ok info =>
      if (s.batchListed batch).getD .unknown ≠ .fiat then (s, some .batchNotListedForFiatSale)
      else if info.creator ≠ some sender then (s, some .senderIsNotBatchCreator)
      else
        match authorise cr s (.mintBatchNft p batch index owner extRef) with
        | none => (s, some .unauthorized)
        | some b => mintBatchNft keccak batch owner index extRef.val .fiat (some (.mintBatchNft p batch index owner extRef, b)) s

/-- batch_nft.rs:139-161 `process_mint_batch_nft_event`; the reference was bounded when the event was parsed. -/
def ethMint (known : Bool) (keccak : List UInt8 → Hash) (batch : U256) (owner : Acct) (index : U64) (extRef : List UInt8) (s : State) : Res :=
  if ¬ known then (s, some .noTier1Event)
  else if (s.batchListed batch).getD .unknown ≠ .ethereum then (s, some .batchNotListedForEthereumSale)
  else mintBatchNft keccak batch owner index extRef .ethereum none s

/-- lib.rs:697-739 `signed_list_batch_for_sale`. -/
def listBatch (cr : Crypto) (sender : Acct) (p : Proof) (batch : U256) (m : Market) (s : State) : Res :=
  if sender ≠ p.signer then (s, some .senderIsNotSigner)
  else if batch = 0 then (s, some .batchIdIsMandatory)
  else if (s.batchInfo batch).isNone then (s, some .batchDoesNotExist)
  else if m = .unknown then (s, some .unsupportedMarket)
  else match infoForBatch s batch with
    | none => (s, some .nftInfoMissing)
    | some info =>
      if info.creator ≠ some sender then (s, some .senderIsNotBatchCreator)
      else if info.supply.val ≤ (s.batches batch).length then (s, some .noNftsToSell)
      else if (s.batchListed batch).isSome then (s, some .batchAlreadyListed)
      else
        match authorise cr s (.listBatch p batch m.byte) with
        | none => (s, some .unauthorized)
        | some b =>
          (note (.batchListed batch m) (some (.listBatch p batch m.byte, b))
            { s with
              batchListed := upd s.batchListed batch (some m)
              batchNonce := upd s.batchNonce sender (s.batchNonce sender + 1) }, none)

/-- batch_nft.rs:238-244 `validate_end_batch_listing_request`. -/
def validateEndBatch (s : State) (batch : U256) : Option Err :=
  if batch = 0 then some .batchIdIsMandatory
  else if (s.batchInfo batch).isNone then some .batchDoesNotExist
  else if (s.batchListed batch).isNone then some .batchNotListed
  else none

/-- batch_nft.rs:226-236 `end_batch_listing`. -/
def endBatchListing (batch : U256) (m : Market) (auth : Option (Call × List UInt8)) (s : State) : Res :=
  match validateEndBatch s batch with
  | some e => (s, some e)
  | none => (note (.batchEnded batch m) auth { s with batchListed := upd s.batchListed batch none }, none)

/-- lib.rs:743-774 `signed_end_batch_sale`. -/
def endBatch (cr : Crypto) (sender : Acct) (p : Proof) (batch : U256) (s : State) : Res :=
  if sender ≠ p.signer then (s, some .senderIsNotSigner)
  else match validateEndBatch s batch with
    | some e => (s, some e)
    | none =>
      if (s.batchListed batch).getD .unknown ≠ .fiat then (s, some .batchNotListedForFiatSale)
      else match infoForBatch s batch with
        | none => (s, some .nftInfoMissing)
        | some info =>
          if info.creator ≠ some sender then (s, some .senderIsNotBatchCreator)
          else
            match authorise cr s (.endBatchSale p batch) with
            | none => (s, some .unauthorized)
            | some b =>
              match endBatchListing batch ((s.batchListed batch).getD .unknown) (some (.endBatchSale p batch, b)) s with
              | (s1, some e) => (s1, some e)
              | (s1, none) => ({ s1 with batchNonce := upd s1.batchNonce sender (s1.batchNonce sender + 1) }, none)

/-- batch_nft.rs:209-224 `process_end_batch_listing_event`. -/
def ethEnd (known : Bool) (batch : U256) (s : State) : Res :=
  if ¬ known then (s, some .noTier1Event)
  else if (s.batchListed batch).getD .unknown ≠ .ethereum then (s, some .batchNotListedForEthereumSale)
  else endBatchListing batch ((s.batchListed batch).getD .unknown) none s

/-- The extrinsics (`sender` is the signed origin; `proxy` dispatches them with the proof's signer as origin) and the Ethereum events
(lib.rs:1189-1200 `processed_event_handler`). -/
inductive Step where
  | mintSingle (sender : Acct) (extRef : List UInt8) (roy : List Royalty) (t1 : Addr)
  | signedMintSingle (cr : Crypto) (sender : Acct) (p : Proof) (extRef : SVec UInt8) (roy : SVec Royalty) (t1 : Addr)
  | list (sender : Acct) (id : U256) (m : Market)
  | signedList (cr : Crypto) (sender : Acct) (p : Proof) (id : U256) (m : Market)
  | transferFiat (cr : Crypto) (sender : Acct) (p : Proof) (id : U256) (dst : Hash)
  | cancelFiat (cr : Crypto) (sender : Acct) (p : Proof) (id : U256)
  | createBatch (cr : Crypto) (sender : Acct) (p : Proof) (supply : U64) (roy : SVec Royalty) (t1 : Addr)
  | signedMintBatch (cr : Crypto) (sender : Acct) (p : Proof) (batch : U256) (index : U64) (owner : Acct) (extRef : SVec UInt8)
  | listBatch (cr : Crypto) (sender : Acct) (p : Proof) (batch : U256) (m : Market)
  | endBatch (cr : Crypto) (sender : Acct) (p : Proof) (batch : U256)
  | ethTransfer (known : Bool) (id : U256) (dst : Hash) (opId : U64)
  | ethCancel (known : Bool) (id : U256) (opId : U64)
  | ethMint (known : Bool) (batch : U256) (owner : Acct) (index : U64) (extRef : List UInt8)
  | ethEnd (known : Bool) (batch : U256)

/-- Extrinsics are transactional. -/
def transactional (s : State) (r : Res) : State := if r.2.isSome then s else r.1

/-- One step; the event path keeps what was written even when the handler fails. -/
def step (keccak : List UInt8 → Hash) (s : State) : Step → State
  | .mintSingle a x r t => transactional s (mintSingle keccak a x r t s)
  | .signedMintSingle cr a p x r t => transactional s (signedMintSingle cr keccak a p x r t s)
  | .list a i m => transactional s (list a i m s)
  | .signedList cr a p i m => transactional s (signedList cr a p i m s)
  | .transferFiat cr a p i d => transactional s (transferFiat cr a p i d s)
  | .cancelFiat cr a p i => transactional s (cancelFiat cr a p i s)
  | .createBatch cr a p n r t => transactional s (createBatch cr keccak a p n r t s)
  | .signedMintBatch cr a p b i o x => transactional s (signedMintBatch cr keccak a p b i o x s)
  | .listBatch cr a p b m => transactional s (listBatch cr a p b m s)
  | .endBatch cr a p b => transactional s (endBatch cr a p b s)
  | .ethTransfer k i d o => (ethTransfer k i d o s).1
  | .ethCancel k i o => (ethCancel k i o s).1
  | .ethMint k b o i x => (ethMint k keccak b o i x s).1
  | .ethEnd k b => (ethEnd k b s).1

/-- Genesis: empty storage. -/
def init : State :=
  { nfts := fun _ => none, infos := fun _ => none, batches := fun _ => [], batchInfo := fun _ => none, refs := fun _ => false,
    nextInfo := 0, nextUnique := 0, listed := fun _ => none, batchNonce := fun _ => 0, batchListed := fun _ => none, log := [] }

/-- A history. -/
def run (keccak : List UInt8 → Hash) (steps : List Step) : State := steps.foldl (step keccak) init

end Verif.Nft
