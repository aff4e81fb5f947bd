import Verif.Lemmas.EventParsing
import Mathlib.Tactic.SplitIfs

/-!
# Property C27: parsing of Ethereum logs is exact

Specification: the Solidity events and the layout which the Ethereum ABI gives their logs (indexed parameters are topics of
32 bytes, the others follow each other in the data; integers are big endian words, addresses words with twelve zero bytes in
front, `string` is an offset word, a length word and the padded bytes).
-/

namespace Verif.Parsing

open Verif (Bytes Addr Hash)
open Verif.ProxyCalls (U32 U64 U128 U256)
open Verif.Events (ValidEvent)

/-- The events of the bridge contract (and ERC-20 `Transfer`) with their Solidity parameter types. -/
inductive SolEvent where
  | validatorRegistered (keyLhs keyRhs t2 : Hash) (id : U256)
  | lifted (token : Addr) (t2 : Hash) (amount : U256)
  | liftedToPredictionMarket (token : Addr) (t2 : Hash) (amount : U256)
  | mintTo (batch : U256) (saleIndex : U64) (owner : Hash) (ref : List UInt8)
  | transferTo (nft : U256) (t2 : Hash) (opId : U64)
  | cancelListing (nft : U256) (opId : U64)
  | endBatchListing (batch : U256)
  | growth (amount : U256) (period : U32)
  | lowerClaimed (lowerId : U32)
  | transfer (sender receiver : Addr) (amount : U256)
  | lowerReverted (token : Addr) (t2 : Hash) (recipient : Addr) (amount : U256) (lowerId : U32)

/-- ABI word of an unsigned integer. -/
def abiUint (n : Nat) : List UInt8 := beBytes 32 n
/-- ABI word of an address. -/
def abiAddr (a : Addr) : List UInt8 := List.replicate 12 0 ++ a.toList
/-- ABI tail of a `string`: offset, length, bytes, padding to whole words. -/
def abiString (s : List UInt8) : List UInt8 :=
  abiUint 32 ++ (abiUint s.length ++ (s ++ List.replicate ((32 - s.length % 32) % 32) 0))

/-- Which kind the log of an event is. -/
def SolEvent.kind : SolEvent → ValidEvent
  | .validatorRegistered .. => .addedValidator
  | .lifted .. => .lifted
  | .liftedToPredictionMarket .. => .liftedToPredictionMarket
  | .mintTo .. => .nftMint
  | .transferTo .. => .nftTransferTo
  | .cancelListing .. => .nftCancelListing
  | .endBatchListing .. => .nftEndBatchListing
  | .growth .. => .avtGrowthLifted
  | .lowerClaimed .. => .avtLowerClaimed
  | .transfer .. => .erc20DirectTransfer
  | .lowerReverted .. => .lowerReverted

/-- The indexed parameters. -/
def SolEvent.indexed : SolEvent → List (List UInt8)
  | .validatorRegistered l r t _ => [l.toList, r.toList, t.toList]
  | .lifted tok t2 _ => [abiAddr tok, t2.toList]
  | .liftedToPredictionMarket tok t2 _ => [abiAddr tok, t2.toList]
  | .mintTo b i o _ => [abiUint b, abiUint i, o.toList]
  | .transferTo n t o => [abiUint n, t.toList, abiUint o]
  | .cancelListing n o => [abiUint n, abiUint o]
  | .endBatchListing b => [abiUint b]
  | .growth a p => [abiUint a, abiUint p]
  | .lowerClaimed i => [abiUint i]
  | .transfer f t _ => [abiAddr f, abiAddr t]
  | .lowerReverted tok t2 r _ _ => [abiAddr tok, t2.toList, abiAddr r]

/-- The data of the log. -/
def SolEvent.logData : SolEvent → List UInt8
  | .validatorRegistered _ _ _ id => abiUint id
  | .lifted _ _ a => abiUint a
  | .liftedToPredictionMarket _ _ a => abiUint a
  | .mintTo _ _ _ ref => abiString ref
  | .transfer _ _ a => abiUint a
  | .lowerReverted _ _ _ a i => abiUint a ++ abiUint i
  | _ => []

/-- The topics of the log: the event signature (any word; the parsers ignore it), then the indexed parameters. -/
def SolEvent.topics (sig : List UInt8) (e : SolEvent) : List (List UInt8) := sig :: e.indexed

/-- The data as the client passes it on: absent when empty. -/
def SolEvent.data (e : SolEvent) : Option (List UInt8) := if e.logData = [] then none else some e.logData

/-- The amount an event carries, if any. -/
def SolEvent.amount? : SolEvent → Option Nat
  | .lifted _ _ a | .liftedToPredictionMarket _ _ a | .growth a _ | .transfer _ _ a | .lowerReverted _ _ _ a _ => some a.val
  | _ => none

/-- The NFT reference an event carries, if any. -/
def SolEvent.ref? : SolEvent → Option (List UInt8)
  | .mintTo _ _ _ r => some r
  | _ => none

/-- Low 128 bits; equal to the number itself for amounts that fit. -/
def toU128 (n : U256) : U128 := ⟨n.val % 2 ^ 128, Nat.mod_lt _ (by decide)⟩

/-- The on-chain value an event stands for (for amounts that fit in a `u128`). The receiver of an ERC-20 transfer is the bridge
contract, widened; the token is filled in later. -/
def SolEvent.value : SolEvent → EventData
  | .validatorRegistered l r t id => .addedValidator ⟨l ++ r, t, id⟩
  | .lifted tok t2 a => .lifted ⟨tok, Vector.replicate 20 0, t2, toU128 a, 0⟩
  | .liftedToPredictionMarket tok t2 a => .liftedToPredictionMarket ⟨tok, Vector.replicate 20 0, t2, toU128 a, 0⟩
  | .mintTo b i o r => .nftMinted ⟨b, o, i, r⟩
  | .transferTo n t o => .nftTransferTo ⟨n, t, o⟩
  | .cancelListing n o => .nftCancelListing ⟨n, o⟩
  | .endBatchListing b => .nftEndBatchListing ⟨b⟩
  | .growth a p => .avtGrowthLifted ⟨toU128 a, p⟩
  | .lowerClaimed i => .lowerClaimed ⟨i⟩
  | .transfer f t a => .erc20Transfer ⟨Vector.replicate 20 0, f, (Vector.replicate 12 (0 : UInt8) ++ t : Bytes 32), toU128 a, 0⟩
  | .lowerReverted tok t2 r a i => .lowerReverted ⟨tok, t2, r, toU128 a, i⟩

/-! ## Helper facts -/

@[simp] theorem abiUint_length (n : Nat) : (abiUint n).length = 32 := by simp [abiUint]
@[simp] theorem abiAddr_length (a : Addr) : (abiAddr a).length = 32 := by simp [abiAddr]
theorem abiUint_ne (n : Nat) : abiUint n ≠ [] := fun h => by have := abiUint_length n; rw [h] at this; cases this

theorem slice_abiAddr (a : Addr) : slice (abiAddr a) 12 32 = a.toList := by
  rw [slice_eq_drop (abiAddr_length a)]; simp [abiAddr]

theorem u256_parse (n : U256) : beNat (2 ^ 256) (abiUint n) = n := beNat_beBytes 32 _ _ n (by norm_num) rfl

theorem u128_parse (n : U256) (h : n.val < 2 ^ 128) : beNat (2 ^ 128) (slice (abiUint n) 16 32) = toU128 n := by
  unfold abiUint
  rw [show slice (beBytes 32 n.val) 16 32 = beBytes 16 n.val from slice_beBytes 16 16 n.val]
  exact beNat_beBytes 16 _ _ (toU128 n) (by norm_num) (by show n.val = n.val % 2 ^ 128; rw [Nat.mod_eq_of_lt h])

theorem u64_parse (n : U64) : beNat (2 ^ 64) (slice (abiUint n) 24 32) = n := by
  unfold abiUint
  rw [show slice (beBytes 32 n.val) 24 32 = beBytes 8 n.val from slice_beBytes 24 8 n.val]
  exact beNat_beBytes 8 _ _ n (by norm_num) rfl

theorem u32_parse (n : U32) : beNat (2 ^ 32) (slice (abiUint n) 28 32) = n := by
  unfold abiUint
  rw [show slice (beBytes 32 n.val) 28 32 = beBytes 4 n.val from slice_beBytes 28 4 n.val]
  exact beNat_beBytes 4 _ _ n (by norm_num) rfl

theorem high_abiUint (n : U256) : anyNonZero (slice (abiUint n) 0 16) = decide (2 ^ 128 ≤ n.val) := anyNonZero_high n.val n.isLt

theorem fromSlice_append (l r : Hash) : fromSlice 64 (l.toList ++ r.toList) = (l ++ r : Bytes 64) := by
  have : l.toList ++ r.toList = (l ++ r : Bytes 64).toList := Vector.toList_append.symm
  rw [this, fromSlice_toList]

theorem fromSlice_widen (t : Addr) : fromSlice 32 (List.replicate 12 0 ++ t.toList) = (Vector.replicate 12 (0 : UInt8) ++ t : Bytes 32) := by
  have : List.replicate 12 (0 : UInt8) ++ t.toList = (Vector.replicate 12 (0 : UInt8) ++ t : Bytes 32).toList := by rw [Vector.toList_append, Vector.toList_replicate]
  rw [this, fromSlice_toList]

theorem abiString_length (s : List UInt8) : (abiString s).length = 64 + (s.length + (32 - s.length % 32) % 32) := by
  simp [abiString]; omega

theorem slice_abiString (s : List UInt8) (h : s.length = 36) : slice (abiString s) 64 100 = s := by
  unfold abiString slice
  rw [← List.append_assoc, List.drop_left' (by simp), List.take_left' h]

/-! ## The theorems -/

/-- **C27, exact values.** The log of every supported event is parsed to exactly the values the event carries, provided its
amount (if it has one) fits in a `u128` and its reference (if it has one) has the 36 bytes of a UUID. -/
theorem C27_parse_exact (sig : List UInt8) (e : SolEvent) (hamt : ∀ a, e.amount? = some a → a < 2 ^ 128)
    (href : ∀ r, e.ref? = some r → r.length = 36) :
    parse e.kind e.data (e.topics sig) = .ok e.value := by
  cases e with
  | validatorRegistered l r t id =>
    simp [-Nat.reducePow, parse, SolEvent.kind, parseAddedValidator, SolEvent.data, SolEvent.logData, abiUint_ne, SolEvent.topics, SolEvent.indexed, topic,
      Res.map, SolEvent.value, u256_parse, fromSlice_append, fromSlice_toList]
  | lifted tok t2 a =>
    have h := hamt a rfl
    have h2 : ¬ 2 ^ 128 ≤ a.val := by omega
    simp [-Nat.reducePow, parse, SolEvent.kind, parseLifted, SolEvent.data, SolEvent.logData, abiUint_ne, SolEvent.topics, SolEvent.indexed, topic,
      Res.map, SolEvent.value, u128_parse a h, high_abiUint, h2, slice_abiAddr, fromSlice_toList]
  | liftedToPredictionMarket tok t2 a =>
    have h := hamt a rfl
    have h2 : ¬ 2 ^ 128 ≤ a.val := by omega
    simp [-Nat.reducePow, parse, SolEvent.kind, parseLifted, SolEvent.data, SolEvent.logData, abiUint_ne, SolEvent.topics, SolEvent.indexed, topic,
      Res.map, SolEvent.value, u128_parse a h, high_abiUint, h2, slice_abiAddr, fromSlice_toList]
  | mintTo b i o r =>
    have h := href r rfl
    have hl : (abiString r).length = 128 := by rw [abiString_length, h]
    have hn : abiString r ≠ [] := fun h => by rw [h] at hl; cases hl
    simp [-Nat.reducePow, parse, SolEvent.kind, parseNftMint, SolEvent.data, SolEvent.logData, hn, hl, SolEvent.topics, SolEvent.indexed, topic,
      Res.map, SolEvent.value, u256_parse, u64_parse, slice_abiString r h, fromSlice_toList]
  | transferTo n t o =>
    simp [-Nat.reducePow, parse, SolEvent.kind, parseNftTransferTo, SolEvent.data, SolEvent.logData, SolEvent.topics, SolEvent.indexed, topic,
      Res.map, SolEvent.value, u256_parse, u64_parse, fromSlice_toList]
  | cancelListing n o =>
    have h : anyNonZero (slice (abiUint o) 0 24) = false := anyNonZero_high24 o.val o.isLt
    simp [-Nat.reducePow, parse, SolEvent.kind, parseNftCancelListing, SolEvent.data, SolEvent.logData, SolEvent.topics, SolEvent.indexed, topic,
      Res.map, SolEvent.value, u256_parse, u64_parse, h]
  | endBatchListing b =>
    simp [-Nat.reducePow, parse, SolEvent.kind, parseNftEndBatchListing, SolEvent.data, SolEvent.logData, SolEvent.topics, SolEvent.indexed, topic,
      Res.map, SolEvent.value, u256_parse]
  | growth a p =>
    have h := hamt a rfl
    have h2 : ¬ 2 ^ 128 ≤ a.val := by omega
    simp [-Nat.reducePow, parse, SolEvent.kind, parseAvtGrowthLifted, SolEvent.data, SolEvent.logData, SolEvent.topics, SolEvent.indexed, topic,
      Res.map, SolEvent.value, u128_parse a h, high_abiUint, h2, u32_parse]
  | lowerClaimed i =>
    simp [-Nat.reducePow, parse, SolEvent.kind, parseAvtLowerClaimed, SolEvent.data, SolEvent.logData, SolEvent.topics, SolEvent.indexed, topic,
      Res.map, SolEvent.value, u32_parse]
  | transfer f t a =>
    have h := hamt a rfl
    have h2 : ¬ 2 ^ 128 ≤ a.val := by omega
    simp [-Nat.reducePow, parse, SolEvent.kind, parseErc20, SolEvent.data, SolEvent.logData, abiUint_ne, SolEvent.topics, SolEvent.indexed, topic,
      Res.map, SolEvent.value, u128_parse a h, high_abiUint, h2, slice_abiAddr, fromSlice_toList]
    exact fromSlice_widen t
  | lowerReverted tok t2 r a i =>
    have h := hamt a rfl
    have h2 : ¬ 2 ^ 128 ≤ a.val := by omega
    have s1 : slice (abiUint a ++ abiUint i) 0 32 = abiUint a := by
      rw [slice_zero, List.take_left' (abiUint_length _)]
    have s2 : slice (abiUint a ++ abiUint i) 32 64 = abiUint i := by
      rw [slice_eq_drop (by simp), List.drop_left' (abiUint_length _)]
    simp [-Nat.reducePow, parse, SolEvent.kind, parseLowerReverted, SolEvent.data, SolEvent.logData, abiUint_ne, SolEvent.topics, SolEvent.indexed, topic,
      Res.map, SolEvent.value, s1, s2, u128_parse a h, high_abiUint, h2, slice_abiAddr, fromSlice_toList, u32_parse]

/-- **C27, oversized amounts.** An event whose amount does not fit in a `u128` is rejected as an overflow. -/
theorem C27_oversized_amount_rejected (sig : List UInt8) (e : SolEvent) (a : Nat) (ha : e.amount? = some a) (hbig : 2 ^ 128 ≤ a) :
    parse e.kind e.data (e.topics sig) = .err .overflow := by
  cases e <;> simp only [SolEvent.amount?, Option.some.injEq, reduceCtorEq] at ha
  case lifted tok t2 a =>
    subst ha
    simp [-Nat.reducePow, parse, SolEvent.kind, parseLifted, SolEvent.data, SolEvent.logData, abiUint_ne, SolEvent.topics, SolEvent.indexed, topic,
      Res.map, high_abiUint, hbig]
  case liftedToPredictionMarket tok t2 a =>
    subst ha
    simp [-Nat.reducePow, parse, SolEvent.kind, parseLifted, SolEvent.data, SolEvent.logData, abiUint_ne, SolEvent.topics, SolEvent.indexed, topic,
      Res.map, high_abiUint, hbig]
  case growth a p =>
    subst ha
    simp [-Nat.reducePow, parse, SolEvent.kind, parseAvtGrowthLifted, SolEvent.data, SolEvent.logData, SolEvent.topics, SolEvent.indexed, topic,
      Res.map, high_abiUint, hbig]
  case transfer f t a =>
    subst ha
    simp [-Nat.reducePow, parse, SolEvent.kind, parseErc20, SolEvent.data, SolEvent.logData, abiUint_ne, SolEvent.topics, SolEvent.indexed, topic,
      Res.map, high_abiUint, hbig]
  case lowerReverted tok t2 r a i =>
    subst ha
    have s1 : slice (abiUint a ++ abiUint i) 0 32 = abiUint a := by
      rw [slice_zero, List.take_left' (abiUint_length _)]
    simp [-Nat.reducePow, parse, SolEvent.kind, parseLowerReverted, SolEvent.data, SolEvent.logData, abiUint_ne, SolEvent.topics, SolEvent.indexed, topic,
      Res.map, s1, high_abiUint, hbig]

/-- Number of topics (signature included) and number of data words the ABI prescribes for each kind (an NFT mint with the
expected reference has four). -/
def expectedShape : ValidEvent → Nat × Nat
  | .addedValidator => (4, 1)
  | .lifted | .liftedToPredictionMarket | .erc20DirectTransfer => (3, 1)
  | .nftMint => (4, 4)
  | .nftTransferTo => (4, 0)
  | .nftCancelListing => (3, 0)
  | .nftEndBatchListing => (2, 0)
  | .avtGrowthLifted => (3, 0)
  | .avtLowerClaimed => (2, 0)
  | .lowerReverted => (4, 2)

/-- The log has the prescribed number of topics, each of them (after the signature) of 32 bytes, and the prescribed number of
data words. -/
def WellShaped (k : ValidEvent) (data : Option (List UInt8)) (topics : List (List UInt8)) : Prop :=
  topics.length = (expectedShape k).1 ∧ (∀ t ∈ topics.tail, t.length = 32) ∧
  match data with
  | none => (expectedShape k).2 = 0
  | some d => (expectedShape k).2 ≠ 0 ∧ d.length = 32 * (expectedShape k).2

theorem tail_lengths {topics : List (List UInt8)} :
    (∀ t ∈ topics.tail, t.length = 32) ↔ ∀ i, 1 ≤ i → i < topics.length → (topic topics i).length = 32 := by
  cases topics with
  | nil => simp
  | cons s ts =>
    simp only [List.tail_cons, List.length_cons, topic]
    constructor
    · intro h i h1 h2
      obtain ⟨j, rfl⟩ : ∃ j, i = j + 1 := ⟨i - 1, by omega⟩
      have hj : j < ts.length := by omega
      simp only [List.getD_eq_getElem?_getD, List.getElem?_cons_succ, List.getElem?_eq_getElem hj, Option.getD_some]
      exact h _ (List.getElem_mem hj)
    · intro h t ht
      obtain ⟨j, hj, rfl⟩ := List.getElem_of_mem ht
      have := h (j + 1) (by omega) (by omega)
      simpa only [List.getD_eq_getElem?_getD, List.getElem?_cons_succ, List.getElem?_eq_getElem hj, Option.getD_some] using this

/-- **C27, malformed logs.** Except for cancelled listings, a log with the wrong number of topics, a topic that is not one word,
or data of the wrong length is rejected with an error: it is neither accepted nor does it crash the parser. (For cancelled
listings see `C27_cancel_listing_partial` and `C27_full_claim_false`.) -/
theorem C27_malformed_rejected (k : ValidEvent) (hk : k ≠ .nftCancelListing) (data : Option (List UInt8)) (topics : List (List UInt8))
    (h : ¬ WellShaped k data topics) : ∃ e, parse k data topics = .err e := by
  by_contra hne
  apply h
  unfold WellShaped
  rw [tail_lengths]
  cases k <;> first | exact absurd rfl hk | skip
  all_goals
    cases data <;>
    simp only [parse, parseAddedValidator, parseLifted, parseErc20, parseNftMint, parseNftTransferTo, parseNftEndBatchListing,
      parseAvtGrowthLifted, parseAvtLowerClaimed, parseLowerReverted] at hne
  all_goals
    repeat' (split at hne)
  all_goals
    first
    | exact absurd ⟨_, rfl⟩ hne
    | skip
  all_goals
    simp only [not_or, Decidable.not_not] at *
    simp only [expectedShape]
    refine ⟨by assumption, ?_, by simp_all⟩
    intro i h1 h2
    have : i = 1 ∨ i = 2 ∨ i = 3 := by omega
    rcases this with rfl | rfl | rfl <;> first | omega | (simp_all; done)

/-- **C27, cancelled listings.** The same for a cancelled listing when the topic of the operation id is one word. What is missing
for the full claim is the length check on that topic. -/
theorem C27_cancel_listing_partial (data : Option (List UInt8)) (topics : List (List UInt8)) (hop : (topic topics 2).length = 32)
    (h : ¬ WellShaped .nftCancelListing data topics) : ∃ e, parse .nftCancelListing data topics = .err e := by
  by_contra hne
  apply h
  unfold WellShaped
  rw [tail_lengths]
  cases data <;> simp only [parse, parseNftCancelListing, hop] at hne
  · repeat' (split at hne)
    all_goals first | exact absurd ⟨_, rfl⟩ hne | (exfalso; omega) | skip
    simp only [Decidable.not_not] at *
    simp only [expectedShape]
    refine ⟨by assumption, ?_, trivial⟩
    intro i h1 h2
    have : i = 1 ∨ i = 2 := by omega
    rcases this with rfl | rfl <;> assumption
  · exact absurd ⟨_, rfl⟩ hne

/-- What a parsed value says about the words of the log: amounts, keys, addresses and 256 bit ids are the whole word, the
narrower integers are the low bits of their word. -/
def Reads (d : EventData) (data : Option (List UInt8)) (topics : List (List UInt8)) : Prop :=
  match d with
  | .addedValidator v => v.ethPublicKey.toList = topic topics 1 ++ topic topics 2 ∧ v.t2Address.toList = topic topics 3 ∧
      ∃ w, data = some w ∧ v.validatorAccountId.val = beVal w
  | .lifted v | .liftedToPredictionMarket v => v.tokenContract.toList = (topic topics 1).drop 12 ∧ v.receiverAddress.toList = topic topics 2 ∧
      ∃ w, data = some w ∧ v.amount.val = beVal w
  | .erc20Transfer v => v.senderAddress.toList = (topic topics 1).drop 12 ∧
      v.receiverAddress.toList = List.replicate 12 0 ++ (topic topics 2).drop 12 ∧ ∃ w, data = some w ∧ v.amount.val = beVal w
  | .nftMinted v => v.batchId.val = beVal (topic topics 1) ∧ v.saleIndex.val = beVal (topic topics 2) % 2 ^ 64 ∧
      v.owner.toList = topic topics 3 ∧ ∃ w, data = some w ∧ v.ref = (w.drop 64).take 36
  | .nftTransferTo v => v.nftId.val = beVal (topic topics 1) ∧ v.transferTo.toList = topic topics 2 ∧
      v.opId.val = beVal (topic topics 3) % 2 ^ 64
  | .nftCancelListing v => v.nftId.val = beVal (topic topics 1) ∧ v.opId.val = beVal ((topic topics 2).take 32)
  | .nftEndBatchListing v => v.batchId.val = beVal (topic topics 1)
  | .avtGrowthLifted v => v.amount.val = beVal (topic topics 1) ∧ v.period.val = beVal (topic topics 2) % 2 ^ 32
  | .lowerClaimed v => v.lowerId.val = beVal (topic topics 1) % 2 ^ 32
  | .lowerReverted v => v.tokenContract.toList = (topic topics 1).drop 12 ∧ v.receiverAddress.toList = topic topics 2 ∧
      v.t1Recipient.toList = (topic topics 3).drop 12 ∧
      ∃ w, data = some w ∧ v.amount.val = beVal (w.take 32) ∧ v.lowerId.val = beVal (w.drop 32) % 2 ^ 32

theorem word256 {w : List UInt8} (h : w.length = 32) : (beNat (2 ^ 256) w).val = beVal w := by
  apply beNat_val
  have := beVal_lt w
  rw [h] at this
  exact lt_of_lt_of_eq this (by norm_num)

theorem low_bytes {w : List UInt8} (a : Nat) (h : w.length = 32) (ha : a ≤ 32) : beVal (w.drop a) = beVal w % 256 ^ (32 - a) := by
  have h1 := word_split w a
  have h2 := beVal_lt (w.drop a)
  rw [List.length_drop, h] at h2
  rw [h1, h, Nat.add_comm, Nat.add_mul_mod_self_right, Nat.mod_eq_of_lt h2]

theorem word128 {w : List UInt8} (h : w.length = 32) (hz : ¬ anyNonZero (slice w 0 16) = true) :
    (beNat (2 ^ 128) (slice w 16 32)).val = beVal w := by
  rw [slice_zero, anyNonZero_iff, Decidable.not_not] at hz
  have h2 := beVal_lt (w.drop 16)
  rw [List.length_drop, h] at h2
  rw [slice_eq_drop h, beNat_val (lt_of_lt_of_eq h2 (by norm_num)), word_split w 16, hz]; simp

theorem word64 {w : List UInt8} (h : w.length = 32) : (beNat (2 ^ 64) (slice w 24 32)).val = beVal w % 2 ^ 64 := by
  have h2 := beVal_lt (w.drop 24)
  rw [List.length_drop, h] at h2
  rw [slice_eq_drop h, beNat_val (lt_of_lt_of_eq h2 (by norm_num)), low_bytes 24 h (by omega)]; norm_num

theorem word32 {w : List UInt8} (h : w.length = 32) : (beNat (2 ^ 32) (slice w 28 32)).val = beVal w % 2 ^ 32 := by
  have h2 := beVal_lt (w.drop 28)
  rw [List.length_drop, h] at h2
  rw [slice_eq_drop h, beNat_val (lt_of_lt_of_eq h2 (by norm_num)), low_bytes 28 h (by omega)]; norm_num

theorem word64_padded {w : List UInt8} (h : 32 ≤ w.length) (hz : ¬ anyNonZero (slice w 0 24) = true) :
    (beNat (2 ^ 64) (slice w 24 32)).val = beVal (w.take 32) := by
  rw [slice_zero, anyNonZero_iff, Decidable.not_not] at hz
  have hl : (w.take 32).length = 32 := by simp; omega
  have e : slice w 24 32 = (w.take 32).drop 24 := by
    unfold slice; rw [List.drop_take]
  have h2 := beVal_lt ((w.take 32).drop 24)
  rw [List.length_drop, hl] at h2
  rw [e, beNat_val (lt_of_lt_of_eq h2 (by norm_num)), word_split (w.take 32) 24, List.take_take]
  simp [hz]

theorem reads_addedValidator {data : Option (List UInt8)} {topics : List (List UInt8)} {v : AddedValidatorData} (h : parseAddedValidator data topics = .ok v) :
    Reads (.addedValidator v) data topics := by
  cases data with
  | none => cases h
  | some w =>
    unfold parseAddedValidator at h
    dsimp only at h
    split_ifs at h with hw hn ht
    injection h with h
    subst h
    simp only [not_or, Decidable.not_not] at *
    simp only [Reads]
    exact ⟨toList_fromSlice (by simp [ht.1, ht.2.1]), toList_fromSlice ht.2.2, w, rfl, word256 hw⟩

theorem reads_lifted {data : Option (List UInt8)} {topics : List (List UInt8)} {v : LiftedData} (h : parseLifted data topics = .ok v) :
    Reads (.lifted v) data topics := by
  cases data with
  | none => cases h
  | some w =>
    unfold parseLifted at h
    dsimp only at h
    split_ifs at h with hw hn ht hz
    injection h with h
    subst h
    simp only [not_or, Decidable.not_not] at *
    simp only [Reads]
    exact ⟨by rw [slice_eq_drop ht.1, toList_fromSlice (by simp [ht.1])], toList_fromSlice ht.2, w, rfl, word128 hw hz⟩

theorem reads_erc20 {data : Option (List UInt8)} {topics : List (List UInt8)} {v : LiftedData} (h : parseErc20 data topics = .ok v) :
    Reads (.erc20Transfer v) data topics := by
  cases data with
  | none => cases h
  | some w =>
    unfold parseErc20 at h
    dsimp only at h
    split_ifs at h with hw hn ht hz
    injection h with h
    subst h
    simp only [not_or, Decidable.not_not] at *
    simp only [Reads]
    exact ⟨by rw [slice_eq_drop ht.2, toList_fromSlice (by simp [ht.2])], by rw [slice_eq_drop ht.1, toList_fromSlice (by simp [ht.1])], w, rfl, word128 hw hz⟩

theorem reads_nftMint {data : Option (List UInt8)} {topics : List (List UInt8)} {v : NftMintData} (h : parseNftMint data topics = .ok v) :
    Reads (.nftMinted v) data topics := by
  cases data with
  | none => cases h
  | some w =>
    unfold parseNftMint at h
    dsimp only at h
    split_ifs at h with hw hn ht
    injection h with h
    subst h
    simp only [not_or, Decidable.not_not] at *
    simp only [Reads]
    exact ⟨word256 ht.1, word64 ht.2.2, toList_fromSlice ht.2.1, w, rfl, rfl⟩

theorem reads_nftTransferTo {data : Option (List UInt8)} {topics : List (List UInt8)} {v : NftTransferToData} (h : parseNftTransferTo data topics = .ok v) :
    Reads (.nftTransferTo v) data topics := by
  cases data with
  | some w => cases h
  | none =>
    unfold parseNftTransferTo at h
    dsimp only at h
    split_ifs at h with hn ht
    injection h with h
    subst h
    simp only [not_or, Decidable.not_not] at *
    simp only [Reads]
    exact ⟨word256 ht.1, toList_fromSlice ht.2.1, word64 ht.2.2⟩

theorem reads_nftCancelListing {data : Option (List UInt8)} {topics : List (List UInt8)} {v : NftCancelListingData} (h : parseNftCancelListing data topics = .ok v) :
    Reads (.nftCancelListing v) data topics := by
  cases data with
  | some w => cases h
  | none =>
    unfold parseNftCancelListing at h
    dsimp only at h
    split_ifs at h with hn ht hs hz hl
    injection h with h
    subst h
    simp only [not_or, Decidable.not_not] at *
    simp only [Reads]
    refine ⟨word256 ht, word64_padded (by omega) hz⟩

theorem reads_nftEndBatchListing {data : Option (List UInt8)} {topics : List (List UInt8)} {v : NftEndBatchListingData} (h : parseNftEndBatchListing data topics = .ok v) :
    Reads (.nftEndBatchListing v) data topics := by
  cases data with
  | some w => cases h
  | none =>
    unfold parseNftEndBatchListing at h
    dsimp only at h
    split_ifs at h with hn ht
    injection h with h
    subst h
    simp only [not_or, Decidable.not_not] at *
    simp only [Reads]
    exact word256 ht

theorem reads_avtGrowthLifted {data : Option (List UInt8)} {topics : List (List UInt8)} {v : AvtGrowthLiftedData} (h : parseAvtGrowthLifted data topics = .ok v) :
    Reads (.avtGrowthLifted v) data topics := by
  cases data with
  | some w => cases h
  | none =>
    unfold parseAvtGrowthLifted at h
    dsimp only at h
    split_ifs at h with hn ht hz
    injection h with h
    subst h
    simp only [not_or, Decidable.not_not] at *
    simp only [Reads]
    exact ⟨word128 ht.1 hz, word32 ht.2⟩

theorem reads_avtLowerClaimed {data : Option (List UInt8)} {topics : List (List UInt8)} {v : AvtLowerClaimedData} (h : parseAvtLowerClaimed data topics = .ok v) :
    Reads (.lowerClaimed v) data topics := by
  cases data with
  | some w => cases h
  | none =>
    unfold parseAvtLowerClaimed at h
    dsimp only at h
    split_ifs at h with hn ht
    injection h with h
    subst h
    simp only [not_or, Decidable.not_not] at *
    simp only [Reads]
    exact word32 ht

theorem reads_lowerReverted {data : Option (List UInt8)} {topics : List (List UInt8)} {v : LowerRevertedData} (h : parseLowerReverted data topics = .ok v) :
    Reads (.lowerReverted v) data topics := by
  cases data with
  | none => cases h
  | some w =>
    unfold parseLowerReverted at h
    dsimp only at h
    split_ifs at h with hw hn ht hz
    injection h with h
    subst h
    simp only [not_or, Decidable.not_not] at *
    simp only [Reads]
    have l1 : (slice w 0 32).length = 32 := by simp [slice, hw]
    have l2 : (slice w 32 64).length = 32 := by simp [slice, hw]
    refine ⟨by rw [slice_eq_drop ht.1, toList_fromSlice (by simp [ht.1])], toList_fromSlice ht.2.1,
      by rw [slice_eq_drop ht.2.2, toList_fromSlice (by simp [ht.2.2])], w, rfl, ?_, ?_⟩
    · rw [word128 l1 hz, slice_zero]
    · rw [word32 l2, slice_eq_drop (show w.length = 64 by omega)]

theorem Res.map_ok {α β : Type} {f : α → β} {r : Res α} {b : β} (h : r.map f = .ok b) : ∃ a, r = .ok a ∧ f a = b := by
  cases r with
  | ok a => cases h; exact ⟨a, rfl, rfl⟩
  | err e => cases h
  | panic => cases h

/-- **C27, nothing invented.** Whatever the log (produced by the ABI or not): if it is accepted, every field of the value is read
from the word where the ABI puts it, and every amount, key, address and 256 bit id is the whole word, never a truncation. -/
theorem C27_accepted_values_are_the_words (k : ValidEvent) (data : Option (List UInt8)) (topics : List (List UInt8)) (d : EventData)
    (h : parse k data topics = .ok d) : Reads d data topics := by
  cases k <;> obtain ⟨v, hv, rfl⟩ := Res.map_ok h
  · exact reads_addedValidator hv
  · exact reads_lifted hv
  · exact reads_nftMint hv
  · exact reads_nftTransferTo hv
  · exact reads_nftCancelListing hv
  · exact reads_nftEndBatchListing hv
  · exact reads_avtGrowthLifted hv
  · exact reads_avtLowerClaimed hv
  · exact reads_lifted hv
  · exact reads_erc20 hv
  · exact reads_lowerReverted hv

/-- **C27, amounts.** Two accepted logs of the same kind whose amounts (as 256 bit words) differ never yield the same value; so
no accepted lift, growth, direct transfer or revert credits a different amount from the one in the log. Here for lifts. -/
theorem C27_lift_amount_is_the_logged_amount (w : List UInt8) (topics : List (List UInt8)) (v : LiftedData)
    (h : parse .lifted (some w) topics = .ok (.lifted v)) : v.amount.val = beVal w ∧ v.receiverAddress.toList = topic topics 2 := by
  obtain ⟨_, h2, w', hw, h3⟩ := C27_accepted_values_are_the_words _ _ _ _ h
  cases hw
  exact ⟨h3, h2⟩

/-! ## The full claim is false: three counterexamples -/

/-- A log of a cancelled listing whose operation id topic is too short. -/
def exShortTopic : List (List UInt8) := [List.replicate 32 1, List.replicate 32 2, [0, 0, 7]]

/-- The full claim of C27 ("a log with the wrong word length is rejected with an error") fails for cancelled listings: the
parser panics on a short operation id, and accepts one that is too long. -/
theorem C27_full_claim_false :
    parse .nftCancelListing none exShortTopic = .panic ∧
    parse .nftCancelListing none [[], List.replicate 32 2, List.replicate 28 0] = .panic ∧
    (∃ d, parse .nftCancelListing none [[], List.replicate 32 2, List.replicate 33 0] = .ok d) := by
  refine ⟨?_, ?_, ?_⟩
  · decide +kernel
  · decide +kernel
  · exact ⟨_, rfl⟩

/-- Narrow integers are truncated: a word holding 2^32 + 5 is accepted as the lower id 5. (Solidity never emits such a word for a
`uint32`, so this needs a malformed log.) -/
theorem C27_narrow_integers_truncated :
    parse .avtLowerClaimed none [[], beBytes 32 (2 ^ 32 + 5)] = .ok (.lowerClaimed ⟨5⟩) ∧
    parse .avtLowerClaimed none [[], beBytes 32 5] = .ok (.lowerClaimed ⟨5⟩) := by
  constructor <;> decide +kernel

/-- The reference of an NFT is always read as 36 bytes: a 40 byte reference, which the ABI encodes in the same four words, is
silently cut, and the cut one equals the 36 byte one. -/
theorem C27_long_reference_cut (sig : List UInt8) (b : U256) (i : U64) (o : Hash) (r : List UInt8) (h1 : 33 ≤ r.length) (h2 : r.length ≤ 64) :
    parse .nftMint (SolEvent.mintTo b i o r).data ((SolEvent.mintTo b i o r).topics sig) =
      .ok (.nftMinted ⟨b, o, i, (r ++ List.replicate ((32 - r.length % 32) % 32) 0).take 36⟩) := by
  have hl : (abiString r).length = 128 := by rw [abiString_length]; omega
  have hn : abiString r ≠ [] := fun h => by rw [h] at hl; cases hl
  have hs : slice (abiString r) 64 100 = (r ++ List.replicate ((32 - r.length % 32) % 32) 0).take 36 := by
    unfold abiString slice
    rw [← List.append_assoc, List.drop_left' (by simp)]
  simp [-Nat.reducePow, parse, parseNftMint, SolEvent.data, SolEvent.logData, hn, hl, SolEvent.topics, SolEvent.indexed, topic,
      Res.map, u256_parse, u64_parse, hs, fromSlice_toList]

/-! ## Kinds and filters -/

/-- **C27, kinds.** Different kinds have different signatures, so the signature of a log determines its parser; and the NFT kinds
and the core kinds (the two filters of the production runtime) are disjoint and together cover every primary kind. -/
theorem C27_signatures_determine_kind (a b : ValidEvent) :
    (Events.signature a = Events.signature b ↔ a = b) ∧ Events.tryFrom (Events.signature a) = some a ∧
    ¬ (a ∈ Events.nftFilter ∧ a ∈ Events.corePrimaryFilter) ∧
    (Events.isPrimary a = true ↔ a ∈ Events.nftFilter ∨ a ∈ Events.corePrimaryFilter) := by
  refine ⟨?_, ?_, ?_, ?_⟩
  · cases a <;> cases b <;> decide
  all_goals cases a <;> decide

/-! ## Examples -/

/-- A lift of 7 · 2^64 + 9 tokens. -/
def exLift : SolEvent := .lifted (Vector.replicate 20 3) (Vector.replicate 32 4) (7 * 2 ^ 64 + 9)

example : parse exLift.kind exLift.data (exLift.topics []) =
    .ok (.lifted ⟨Vector.replicate 20 3, Vector.replicate 20 0, Vector.replicate 32 4, 7 * 2 ^ 64 + 9, 0⟩) := by decide +kernel

/-- An amount of 2^128 is refused. -/
example : parse .lifted (SolEvent.lifted (Vector.replicate 20 3) (Vector.replicate 32 4) (2 ^ 128)).data
    ((SolEvent.lifted (Vector.replicate 20 3) (Vector.replicate 32 4) (2 ^ 128)).topics []) = .err .overflow := by decide +kernel

/-- A mint with a 36 byte reference. -/
def exMint : SolEvent := .mintTo 5 1 (Vector.replicate 32 4) (List.replicate 36 65)

example : exMint.ref? = some (List.replicate 36 65) ∧
    parse exMint.kind exMint.data (exMint.topics []) = .ok (.nftMinted ⟨5, Vector.replicate 32 4, 1, List.replicate 36 65⟩) := by
  constructor
  · rfl
  · decide +kernel

/-- A lift with two topics is malformed. -/
example : ¬ WellShaped .lifted (some (List.replicate 32 0)) [[], List.replicate 32 0] := by simp [WellShaped, expectedShape]

end Verif.Parsing
