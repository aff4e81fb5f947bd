import Verif.Model.Common

/-!
# The calls that can be proxied, and the bytes their authorisations sign
runtime/avn/src/proxy_config.rs, and the `encode_*_params` functions of the pallets.

Unsigned integers are bounded types, so nothing is assumed about their size; byte strings and vectors are shorter than
2^32 (their SCALE length prefix is a `u32`).
-/

namespace Verif.ProxyCalls

/-- `u32`, `u64`, `u128`, `U256`. -/
abbrev U32 := Fin (2 ^ 32)
abbrev U64 := Fin (2 ^ 64)
abbrev U128 := Fin (2 ^ 128)
abbrev U256 := Fin (2 ^ 256)

/-- `Vec<T>` / `BoundedVec<T>`: shorter than 2^32. -/
abbrev SVec (α : Type) := { l : List α // l.length < pow32 }

/-- pallets/nft-manager/src/nft_data.rs:24-36 `Royalty`. -/
structure Royalty where
  recipient : Addr
  ppm : U32
deriving DecidableEq

/-- `MultiAddress<AccountId, ()>`: the `Lookup::Source` of the runtime. -/
inductive MultiAddr where
  | id (a : Acct)
  | index
  | raw (b : SVec UInt8)
  | address32 (a : Bytes 32)
  | address20 (a : Bytes 20)
deriving DecidableEq

/-- The 24 calls for which runtime/avn/src/proxy_config.rs:15-131 returns a proof, with their arguments; every other runtime
call (including `proxy` itself) is `other`. Enum arguments (`ValidEvents`, `NftSaleType`) are their index byte. -/
inductive Call where
  | addEthereumLog (proof : Proof) (eventType : UInt8) (txHash : Hash)
  | signedTransfer (proof : Proof) (frm dst : Acct) (token : Addr) (amount : U128)
  | signedLower (proof : Proof) (frm : Acct) (token : Addr) (amount : U128) (t1 : Addr)
  | mintSingleNft (proof : Proof) (extRef : SVec UInt8) (royalties : SVec Royalty) (t1 : Addr)
  | listNft (proof : Proof) (nft : U256) (market : UInt8)
  | transferFiatNft (proof : Proof) (nft : U256) (dst : Hash)
  | cancelListNft (proof : Proof) (nft : U256)
  | createBatch (proof : Proof) (supply : U64) (royalties : SVec Royalty) (t1 : Addr)
  | mintBatchNft (proof : Proof) (batch : U256) (index : U64) (owner : Acct) (extRef : SVec UInt8)
  | listBatch (proof : Proof) (batch : U256) (market : UInt8)
  | endBatchSale (proof : Proof) (batch : U256)
  | candidateBondExtra (proof : Proof) (extra : U128)
  | executeCandidateUnbond (proof : Proof) (candidate : Acct)
  | scheduleCandidateUnbond (proof : Proof) (less : U128)
  | nominate (proof : Proof) (targets : SVec MultiAddr) (amount : U128)
  | scheduleLeaveNominators (proof : Proof)
  | executeLeaveNominators (proof : Proof) (nominator : Acct)
  | scheduleRevokeNomination (proof : Proof) (collator : Acct)
  | bondExtra (proof : Proof) (extra : U128)
  | scheduleNominatorUnbond (proof : Proof) (less : U128)
  | executeNominationRequest (proof : Proof) (nominator : Acct)
  | registerChainHandler (proof : Proof) (handler : Acct) (name : SVec UInt8)
  | updateChainHandler (proof : Proof) (oldHandler newHandler : Acct)
  | submitCheckpoint (proof : Proof) (handler : Acct) (checkpoint : Hash) (originId : U64)
  | other (n : Nat)
deriving DecidableEq

/-- runtime/avn/src/proxy_config.rs:15-131 `get_proof`. -/
def Call.proof? : Call → Option Proof
  | .addEthereumLog p .. | .signedTransfer p .. | .signedLower p .. | .mintSingleNft p .. | .listNft p ..
  | .transferFiatNft p .. | .cancelListNft p .. | .createBatch p .. | .mintBatchNft p .. | .listBatch p ..
  | .endBatchSale p .. | .candidateBondExtra p .. | .executeCandidateUnbond p .. | .scheduleCandidateUnbond p ..
  | .nominate p .. | .scheduleLeaveNominators p | .executeLeaveNominators p .. | .scheduleRevokeNomination p ..
  | .bondExtra p .. | .scheduleNominatorUnbond p .. | .executeNominationRequest p .. | .registerChainHandler p ..
  | .updateChainHandler p .. | .submitCheckpoint p .. => some p
  | .other _ => none

/-- The storage the payloads read: the nonces of the token manager, ethereum-events, staking and NFT batches per account,
of an NFT (absent if the NFT does not exist), and the anchored chain of a handler with its nonce. -/
structure Nonces where
  token : Acct → U64
  ethEvents : Acct → U64
  staking : Acct → U64
  batch : Acct → U64
  nft : U256 → Option U64
  chainOf : Acct → Option U32
  chain : U32 → U64

/-! ## Encoding -/

/-- The types that occur in signed payloads. -/
inductive Field where
  | fixed (n : Nat) (b : Bytes n)
  | byte (b : UInt8)
  | u32 (x : U32)
  | u64 (x : U64)
  | u128 (x : U128)
  | u256 (x : U256)
  | bytes (b : SVec UInt8)
  | royalties (r : SVec Royalty)
  | targets (t : SVec MultiAddr)

/-- SCALE encoding of a royalty (pallets/nft-manager/src/nft_data.rs:24-36). -/
def encRoyalty (r : Royalty) : List UInt8 := r.recipient.toList ++ leBytes 4 r.ppm.val

/-- SCALE encoding of `MultiAddress`. -/
def encMulti : MultiAddr → List UInt8
  | .id a => 0 :: a.toList
  | .index => [1]
  | .raw b => 2 :: scaleBytes b.val
  | .address32 a => 3 :: a.toList
  | .address20 a => 4 :: a.toList

/-- SCALE encoding of one field. -/
def Field.enc : Field → List UInt8
  | .fixed _ b => b.toList
  | .byte b => [b]
  | .u32 x => leBytes 4 x.val
  | .u64 x => leBytes 8 x.val
  | .u128 x => leBytes 16 x.val
  | .u256 x => leBytes 32 x.val
  | .bytes b => scaleBytes b.val
  | .royalties r => scaleVec encRoyalty r.val
  | .targets t => scaleVec encMulti t.val

/-- SCALE encoding of a tuple is the concatenation of its fields. -/
def encFields (fs : List Field) : List UInt8 := (fs.map Field.enc).flatten

/-- The contexts: pallets/ethereum-events/src/lib.rs:80-81; pallets/token-manager/src/lib.rs:100-101;
pallets/nft-manager/src/lib.rs:65-74 and batch_nft.rs:29-35; pallets/parachain-staking/src/proxy_methods.rs:17-36;
pallets/avn-anchor/src/lib.rs:34-36. -/
def context : Call → String
  | .addEthereumLog .. => "authorization for add ethereum log operation"
  | .signedTransfer .. => "authorization for transfer operation"
  | .signedLower .. => "authorization for lower operation"
  | .mintSingleNft .. => "authorization for mint single nft operation"
  | .listNft .. => "authorization for list nft open for sale operation"
  | .transferFiatNft .. => "authorization for transfer fiat nft operation"
  | .cancelListNft .. => "authorization for cancel list fiat nft for sale operation"
  | .createBatch .. => "authorization for create batch operation"
  | .mintBatchNft .. => "authorization for mint batch nft operation"
  | .listBatch .. => "authorization for list batch for sale operation"
  | .endBatchSale .. => "authorization for end batch sale operation"
  | .candidateBondExtra .. => "parachain authorization for candidate bond extra operation"
  | .executeCandidateUnbond .. => "parachain authorization for executing candidate unbond operation"
  | .scheduleCandidateUnbond .. => "parachain authorization for scheduling candidate unbond operation"
  | .nominate .. => "parachain authorization for nominate operation"
  | .scheduleLeaveNominators .. => "parachain authorization for scheduling leaving nominators operation"
  | .executeLeaveNominators .. => "parachain authorization for executing leave nominators operation"
  | .scheduleRevokeNomination .. => "parachain authorization for nominator remove bond operation"
  | .bondExtra .. => "parachain authorization for nominator bond extra operation"
  | .scheduleNominatorUnbond .. => "parachain authorization for scheduling nominator unbond operation"
  | .executeNominationRequest .. => "parachain authorization for executing nomination requests operation"
  | .registerChainHandler .. => "register_chain_handler"
  | .updateChainHandler .. => "update_chain_handler"
  | .submitCheckpoint .. => "submit_checkpoint"
  | .other _ => ""

/-- The fields signed after the context: ethereum-events/src/lib.rs:1593-1606, token-manager/src/lib.rs:854-892,
nft-manager/src/lib.rs:1037-1085, nft-manager/src/batch_nft.rs:86-137, parachain-staking/src/proxy_methods.rs:151-229,
avn-anchor/src/lib.rs:608-635, with the nonces looked up as in the pallets' `get_encoded_call_param`. `none` when the
lookup fails. -/
def fields (ns : Nonces) : Call → Option (List Field)
  | .addEthereumLog p e h => some [.fixed 32 p.relayer, .byte e, .fixed 32 h, .u64 (ns.ethEvents p.signer)]
  | .signedTransfer p f d t a =>
    some [.fixed 32 p.relayer, .fixed 32 f, .fixed 32 d, .fixed 20 t, .u128 a, .u64 (ns.token p.signer)]
  | .signedLower p f t a r =>
    some [.fixed 32 p.relayer, .fixed 32 f, .fixed 20 t, .u128 a, .fixed 20 r, .u64 (ns.token p.signer)]
  | .mintSingleNft p x r t => some [.fixed 32 p.relayer, .bytes x, .royalties r, .fixed 20 t]
  | .listNft p i m => (ns.nft i).map fun n => [.fixed 32 p.relayer, .u256 i, .byte m, .u64 n]
  | .transferFiatNft p i d => (ns.nft i).map fun n => [.fixed 32 p.relayer, .u256 i, .fixed 32 d, .u64 n]
  | .cancelListNft p i => (ns.nft i).map fun n => [.fixed 32 p.relayer, .u256 i, .u64 n]
  | .createBatch p s r t => some [.fixed 32 p.relayer, .u64 s, .royalties r, .fixed 20 t, .u64 (ns.batch p.signer)]
  | .mintBatchNft p b i o x => some [.fixed 32 p.relayer, .u256 b, .u64 i, .bytes x, .fixed 32 o]
  | .listBatch p b m => some [.fixed 32 p.relayer, .u256 b, .byte m, .u64 (ns.batch p.signer)]
  | .endBatchSale p b => some [.fixed 32 p.relayer, .u256 b, .u64 (ns.batch p.signer)]
  | .candidateBondExtra p a => some [.fixed 32 p.relayer, .u128 a, .u64 (ns.staking p.signer)]
  | .executeCandidateUnbond p c => some [.fixed 32 p.relayer, .fixed 32 c, .u64 (ns.staking p.signer)]
  | .scheduleCandidateUnbond p a => some [.fixed 32 p.relayer, .u128 a, .u64 (ns.staking p.signer)]
  | .nominate p t a => some [.fixed 32 p.relayer, .targets t, .u128 a, .u64 (ns.staking p.signer)]
  | .scheduleLeaveNominators p => some [.fixed 32 p.relayer, .u64 (ns.staking p.signer)]
  | .executeLeaveNominators p n => some [.fixed 32 p.relayer, .fixed 32 n, .u64 (ns.staking p.signer)]
  | .scheduleRevokeNomination p c => some [.fixed 32 p.relayer, .fixed 32 c, .u64 (ns.staking p.signer)]
  | .bondExtra p a => some [.fixed 32 p.relayer, .u128 a, .u64 (ns.staking p.signer)]
  | .scheduleNominatorUnbond p a => some [.fixed 32 p.relayer, .u128 a, .u64 (ns.staking p.signer)]
  | .executeNominationRequest p n => some [.fixed 32 p.relayer, .fixed 32 n, .u64 (ns.staking p.signer)]
  | .registerChainHandler p h n => some [.fixed 32 p.relayer, .fixed 32 h, .bytes n]
  | .updateChainHandler p o n =>
    (ns.chainOf o).map fun c => [.fixed 32 p.relayer, .fixed 32 o, .fixed 32 n, .u32 c, .u64 (ns.chain c)]
  | .submitCheckpoint p h k o =>
    (ns.chainOf h).map fun c => [.fixed 32 p.relayer, .fixed 32 h, .fixed 32 k, .u32 c, .u64 (ns.chain c), .u64 o]
  | .other _ => none

/-- The pallets' `get_encoded_call_param`: the payload bytes. -/
def payload (ns : Nonces) (c : Call) : Option (List UInt8) :=
  (fields ns c).map fun fs => scaleBytes (ascii (context c)) ++ encFields fs

/-- runtime/avn/src/proxy_config.rs:133-153 and the pallets' `InnerCallValidator::signature_is_valid`: the proof's signature
verifies over the payload. -/
def signatureIsValid (cr : Crypto) (ns : Nonces) (c : Call) : Bool :=
  match c.proof?, payload ns c with
  | some p, some m => verifySignature cr p m
  | _, _ => false

/-! ## Relayer fee payments -/

/-- pallets/avn-proxy/src/lib.rs:261-267 `PaymentInfo`. -/
structure PaymentInfo where
  payer : Acct
  recipient : Acct
  amount : U128
  signature : Sig
  token : Addr
deriving DecidableEq

/-- SCALE encoding of `MultiSignature`. -/
def encSig : Sig → List UInt8
  | .ed25519 r => 0 :: r.toList
  | .sr25519 r => 1 :: r.toList
  | .ecdsa r => 2 :: r.toList

/-- SCALE encoding of `Proof` (primitives/avn-common/src/lib.rs:103-108). -/
def encProof (p : Proof) : List UInt8 := p.signer.toList ++ (p.relayer.toList ++ encSig p.signature)

/-- `PAYMENT_AUTH_CONTEXT` (pallets/avn-proxy/src/lib.rs:29). -/
def paymentContext : String := "authorization for proxy payment"

/-- pallets/avn-proxy/src/lib.rs:206-219: the payload of a payment authorisation. -/
def paymentPayload (p : Proof) (pay : PaymentInfo) (nonce : U64) : List UInt8 :=
  scaleBytes (ascii paymentContext) ++ (encProof p ++ (pay.recipient.toList ++ (leBytes 16 pay.amount.val ++
    (pay.token.toList ++ leBytes 8 nonce.val))))

end Verif.ProxyCalls
