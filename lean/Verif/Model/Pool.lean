import Verif.Model.AuthorPayloads
import Verif.Model.EthBridgeEvents
import Verif.Model.EthBridgeTx
import Verif.Model.EthereumEvents
import Verif.Model.Summary

/-!
# Authors' unsigned reports in the transaction pool
pallets/eth-bridge/src/lib.rs:1058-1190, pallets/ethereum-events/src/lib.rs:850-980, pallets/summary/src/lib.rs:850-890,1456-1532,
pallets/summary/src/challenge.rs:78-97, pallets/avn/src/vote.rs:165-282

Every `validate_unsigned` returns the tag the transaction provides, its priority and its longevity. What the pool does with them is Substrate's
(`sc-transaction-pool`, not in the repository): a transaction that provides a tag which a transaction of the pool provides already replaces it if
its priority is higher, and is refused otherwise.
-/

namespace Verif.Pool

open Verif.Payloads

/-- `Validator` as named in a call. Models `primitives/avn-common/src/event_types.rs:988-991`. -/
structure Author where
  account : Acct
  key : Hash
deriving DecidableEq

/-- What is reported: the calls of `ethereum-events` and `summary` (`Report`) or those of the bridge (`Bridge`, which names its author's account). -/
inductive Content where
  | report (r : Report)
  | bridge (b : Bridge)
deriving DecidableEq

/-- An unsigned transaction: the call with the author named in it and its signature. For a call of the bridge `author.account` is the account the
report names (the same field of the call). -/
structure Tx where
  content : Content
  author : Author
  signature : Bytes 64
deriving DecidableEq

/-- SCALE encoding of `Validator`. Models `primitives/avn-common/src/event_types.rs:988-991`. -/
def Author.bytes (a : Author) : List UInt8 := a.account.toList ++ a.key.toList

/-- `EthEventId::hashed`; `H` is the hash of the runtime. Models `primitives/avn-common/src/event_types.rs:905-909`. -/
def eventHash (H : List UInt8 → Hash) (signature txHash : List UInt8) : List UInt8 := (H (signature ++ txHash)).toList

/-- `with_tag_prefix(prefix).and_provides(vec![x.encode()])`: the encoding of the prefix and of a vector with one byte string. -/
def vecTag (tagPrefix : String) (x : List UInt8) : List UInt8 :=
  scaleBytes (ascii tagPrefix) ++ (compact 1 ++ scaleBytes x)

/-- The tag of a call of `ethereum-events` or `summary`. A check result begins with the id of its event (64 bytes).
Models `pallets/ethereum-events/src/lib.rs:894-903,925-934,966-976`, `pallets/summary/src/lib.rs:1485-1495,1523-1528`,
`pallets/avn/src/vote.rs:189-199,230-241,270-281`, `pallets/summary/src/challenge.rs:91-96`. -/
def reportTag (H : List UInt8 → Hash) (r : Report) (a : Author) : List UInt8 :=
  match r with
  | .checkResult res _ =>
    vecTag "EthereumEvents" (scaleBytes (ascii "check") ++ eventHash H (res.take 32) ((res.drop 32).take 32))
  | .processEvent s t _ => vecTag "EthereumEvents" (scaleBytes (ascii "process") ++ eventHash H s.toList t.toList)
  | .challengeEvent s t _ by_ _ =>
    vecTag "EthereumEvents" (scaleBytes (ascii "challenge") ++ (by_.toList ++ eventHash H s.toList t.toList))
  | .recordRoot _ root i _ => vecTag "Summary" (scaleBytes r.context ++ (root.toList ++ leBytes 8 i))
  | .advanceSlot _ slot => vecTag "Summary" (scaleBytes r.context ++ leBytes 4 slot)
  | .rootVote _ f t i aye => vecTag "vote" (scaleBytes r.context ++ (scaleBytes (sessionId f t i) ++ (boolByte aye ++ a.bytes)))
  | .endVote _ f t i => vecTag "vote" (scaleBytes r.context ++ (scaleBytes (sessionId f t i) ++ a.bytes))
  | .challengeRoot _ reason x y =>
    vecTag "summary_challenge" (scaleBytes r.context ++ (reasonBytes reason ++ (x.toList ++ (y.toList ++ a.bytes))))

/-- SCALE encoding of a call of the bridge: its index, its arguments in order, the author in the place of its account, and the signature.
Models `pallets/eth-bridge/src/lib.rs:425-433,479-487,513-525,576-587,638-648`. -/
def callBytes (b : Bridge) (key : Hash) (sig : Bytes 64) : List UInt8 :=
  match b with
  | .confirmation i c a => 2 :: (leBytes 4 i ++ (c.toList ++ (a.toList ++ (key.toList ++ sig.toList))))
  | .ethTxHash i h a => 3 :: (leBytes 4 i ++ (h.toList ++ (a.toList ++ (key.toList ++ sig.toList))))
  | .corroboration i s v a r =>
    4 :: (leBytes 4 i ++ (boolByte s ++ (boolByte v ++ (a.toList ++ (key.toList ++ (leBytes 2 r ++ sig.toList))))))
  | .events a p => 6 :: (a.toList ++ (key.toList ++ (p ++ sig.toList)))
  | .latestBlock a n => 7 :: (a.toList ++ (key.toList ++ (leBytes 4 n ++ sig.toList)))

/-- The tag of a call of the bridge: prefix, the whole call, and what it is about (an events partition begins with its range and number, 10 bytes).
Models `pallets/eth-bridge/src/lib.rs:1077-1082,1098-1103,1128-1133,1150-1159,1177-1182`. -/
def bridgeTag (b : Bridge) (key : Hash) (sig : Bytes 64) : List UInt8 :=
  match b with
  | .confirmation i .. => scaleBytes (ascii "EthBridgeAddConfirmation") ++ (callBytes b key sig ++ leBytes 4 i)
  | .ethTxHash i .. => scaleBytes (ascii "EthBridgeAddReceipt") ++ (callBytes b key sig ++ leBytes 4 i)
  | .corroboration i .. => scaleBytes (ascii "EthBridgeAddCorroboration") ++ (callBytes b key sig ++ leBytes 4 i)
  | .events _ p => scaleBytes (ascii "EthBridgeAddEventRange") ++ (callBytes b key sig ++ p.take 10)
  | .latestBlock _ n => scaleBytes (ascii "EthBridgeAddLatestEthBlock") ++ (callBytes b key sig ++ leBytes 4 n)

/-- The tag a transaction provides. Models the lines cited at `reportTag` and `bridgeTag`. -/
def tag (H : List UInt8 → Hash) (x : Tx) : List UInt8 :=
  match x.content with
  | .report r => reportTag H r x.author
  | .bridge b => bridgeTag b x.author.key x.signature

/-- The priority. Models `pallets/eth-bridge/src/lib.rs:1062,1079`, `pallets/ethereum-events/src/lib.rs:895,926,967`,
`pallets/summary/src/lib.rs:1486,1524`, `pallets/avn/src/vote.rs:190,231,271`, `pallets/summary/src/challenge.rs:92`. -/
def priority (x : Tx) : Nat :=
  match x.content with
  | .report _ => 18446744073709551615
  | .bridge _ => 18446744073709551615 - 1000

/-- What `validate_unsigned` checks of the author named in the call, besides its signature and the state of the chain: a challenge of an event is by
its author. Models `pallets/ethereum-events/src/lib.rs:954-956`; for the bridge see `Tx`. -/
def authorMatches (x : Tx) : Bool :=
  match x.content with
  | .report (.challengeEvent _ _ _ by_ _) => x.author.account == by_
  | .report _ => true
  | .bridge (.confirmation _ _ a) => x.author.account == a
  | .bridge (.ethTxHash _ _ a) => x.author.account == a
  | .bridge (.corroboration _ _ _ a _) => x.author.account == a
  | .bridge (.events a _) => x.author.account == a
  | .bridge (.latestBlock a _) => x.author.account == a

/-- A transaction arrives; `ok` is the rest of the verdict of `validate_unsigned`. (Substrate's pool: see the head of this file.) -/
def submit (H : List UInt8 → Hash) (pool : List Tx) (x : Tx) (ok : Bool) : List Tx :=
  if (ok && authorMatches x) = false then pool
  else if pool.any (fun y => tag H y == tag H x && decide (priority x ≤ priority y)) then pool
  else pool.filter (fun y => tag H y != tag H x) ++ [x]

/-- What happens to a pool: a transaction arrives, or some leave (in a block, found invalid, or after 64 blocks). -/
inductive Op where
  | arrive (x : Tx) (ok : Bool)
  | leave (stays : Tx → Bool)

/-- One operation. -/
def op (H : List UInt8 → Hash) (pool : List Tx) : Op → List Tx
  | .arrive x ok => submit H pool x ok
  | .leave stays => pool.filter stays

/-- A history of the pool. -/
def runOps (H : List UInt8 → Hash) (ops : List Op) : List Tx := ops.foldl (op H) []

/-! ### Admission: the parts of `validate_unsigned` that depend on the state

`sigOk` says that the signature of the call verifies with the key named in it (`AVN::signature_is_valid` checks besides that the account is a
validator's). Those of `ethereum-events` are `validSubmit`, `validProcess` and `validChallenge` in Model/EthereumEvents. -/

/-- A vote on a root. Models `pallets/summary/src/lib.rs:865-885`, `pallets/avn/src/vote.rs:205-229,245-269`. -/
def admitVote (s : Summary.State) (rid : Summary.RootId) (voter : Nat) (approve sigOk : Bool) : Bool :=
  (if approve then (Summary.getRoot s.roots rid).isSome else true) &&
  match s.votes rid with
  | none => false
  | some v =>
    match Avn.validateVote s.validators (Summary.sessionActive s rid) v voter with
    | .ok _ => Avn.isValidator s.validators voter && sigOk
    | .error _ => false

/-- The end of a vote. Models `pallets/summary/src/lib.rs:858-864`, `pallets/avn/src/vote.rs:165-187`. -/
def admitEnd (s : Summary.State) (rid : Summary.RootId) (who : Nat) (sigOk : Bool) : Bool :=
  Summary.sessionValid s rid && (s.votes rid).isSome && Avn.isValidator s.validators who && sigOk

/-- A root being recorded. Models `pallets/summary/src/lib.rs:1456-1483`. -/
def admitRecord (s : Summary.State) (who : Nat) (sigOk : Bool) : Bool :=
  s.slotValidator == some who && Avn.isValidator s.validators who && sigOk

/-- A slot being advanced: the signature must be one of the current slot; `slot` is the one signed. Models
`pallets/summary/src/lib.rs:1501-1521`. -/
def admitAdvance (s : Summary.State) (slot who : Nat) (sigOk : Bool) : Bool :=
  s.slotValidator == some who && slot == s.currentSlot && Avn.isValidator s.validators who && sigOk

/-- A challenge of a slot. Models `pallets/summary/src/challenge.rs:78-89`. -/
def admitSlotChallenge (s : Summary.State) (reason : Option Nat) (who : Nat) (sigOk : Bool) : Bool :=
  reason.isSome && Avn.isValidator s.validators who && sigOk

/-- A confirmation, a transaction hash or a corroboration. Models `pallets/eth-bridge/src/lib.rs:1065-1076,1086-1097,1113-1127`. -/
def admitBridge {W : Type} (s : BridgeTx.State W) (author : Nat) (sigOk : Bool) : Bool :=
  Avn.isValidator s.avn.validators author && sigOk

/-- A vote on a partition. Models `pallets/eth-bridge/src/lib.rs:1137-1149,1393-1402`. -/
def admitEvents {W : Type} (s : EthBridge.State W) (author : Nat) (p : EthBridge.Partition) (sigOk : Bool) : Bool :=
  (match s.active with
   | some a => p.range == a.range && p.number == a.partition
   | none => false) && EthBridge.isAuthor s author && sigOk

/-- A latest block. Models `pallets/eth-bridge/src/lib.rs:1163-1176`. -/
def admitBlock {W : Type} (s : EthBridge.State W) (author : Nat) (sigOk : Bool) : Bool :=
  s.active.isNone && EthBridge.isAuthor s author && sigOk

end Verif.Pool
