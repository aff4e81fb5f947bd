import Verif.Model.Encoding

/-!
# What the AvN key of an author signs
pallets/eth-bridge (call.rs, lib.rs, eth.rs), pallets/ethereum-events/src/lib.rs, pallets/summary (lib.rs, vote.rs, challenge.rs),
pallets/avn/src/vote.rs, client/external-service/src/ethereum_events_handler.rs

All pallets check votes and reports of authors with `AVN::signature_is_valid(&data, author, signature)`, where the signature must be one by
the author's AvN key of the SCALE encoding of `data`. The encodings of an events partition and of a check result are opaque byte strings.
-/

namespace Verif.Payloads

/-- Votes and reports that begin with a context. `pallet` is the `InstanceId` of the `Summary` instance concerned. -/
inductive Report where
  /-- `pallets/ethereum-events/src/lib.rs:886-890,1272` -/
  | checkResult (result : List UInt8) (ingress : Nat)
  /-- `pallets/ethereum-events/src/lib.rs:917-921,1233` -/
  | processEvent (signature txHash : Hash) (ingress : Nat)
  /-- `pallets/ethereum-events/src/lib.rs:958-962,1311` -/
  | challengeEvent (signature txHash : Hash) (reason : UInt8) (challengedBy : Acct) (ingress : Nat)
  /-- `pallets/summary/src/lib.rs:1237-1245,1475-1480` -/
  | recordRoot (pallet : UInt8) (root : Hash) (ingress block : Nat)
  /-- `pallets/summary/src/lib.rs:1276,1518` -/
  | advanceSlot (pallet : UInt8) (slot : Nat)
  /-- `pallets/summary/src/vote.rs:303,327`, `pallets/avn/src/vote.rs:222-226,262-266` -/
  | rootVote (pallet : UInt8) (fromBlock toBlock ingress : Nat) (aye : Bool)
  /-- `pallets/summary/src/vote.rs:221`, `pallets/avn/src/vote.rs:181-185` -/
  | endVote (pallet : UInt8) (fromBlock toBlock ingress : Nat)
  /-- `pallets/summary/src/challenge.rs:87,149`; the reason is a slot that was not advanced, or unknown -/
  | challengeRoot (pallet : UInt8) (reason : Option Nat) (challenger challengee : Acct)
deriving DecidableEq

/-- The context a report begins with. Models `pallets/ethereum-events/src/lib.rs:136-138`, `pallets/summary/src/lib.rs:58-59,894-906`,
`pallets/summary/src/vote.rs:21-22`, `pallets/summary/src/challenge.rs:19`. -/
def Report.context : Report → List UInt8
  | .checkResult .. => ascii "submit_checkevent_result"
  | .processEvent .. => ascii "process_event"
  | .challengeEvent .. => ascii "challenge_event"
  | .recordRoot p .. => p :: ascii "update_last_processed_block_number"
  | .advanceSlot p .. => p :: ascii "advance_slot"
  | .rootVote .. => ascii "root_casting_vote"
  | .endVote .. => ascii "root_end_voting_period"
  | .challengeRoot .. => ascii "root_challenge"

/-- SCALE encoding of a `bool`. -/
def boolByte (b : Bool) : List UInt8 := [if b then 1 else 0]

/-- `RootId::session_id`: the 16 byte encoding of a root id, within the bound of 64. Models `primitives/avn-common/src/lib.rs:443-456`. -/
def sessionId (fromBlock toBlock ingress : Nat) : List UInt8 := leBytes 4 fromBlock ++ (leBytes 4 toBlock ++ leBytes 8 ingress)

/-- SCALE encoding of `SummaryChallengeReason`. Models `pallets/summary/src/challenge.rs:24-31`. -/
def reasonBytes : Option Nat → List UInt8
  | some slot => 0 :: leBytes 4 slot
  | none => [1]

/-- What follows the context. Models the lines cited at `Report`. -/
def Report.body : Report → List UInt8
  | .checkResult r i => r ++ leBytes 8 i
  | .processEvent s t i => s.toList ++ (t.toList ++ leBytes 8 i)
  | .challengeEvent s t r a i => s.toList ++ (t.toList ++ (r :: (a.toList ++ leBytes 8 i)))
  | .recordRoot _ r i b => r.toList ++ (leBytes 8 i ++ leBytes 4 b)
  | .advanceSlot _ s => leBytes 4 s
  | .rootVote _ f t i aye => scaleBytes (sessionId f t i) ++ boolByte aye
  | .endVote _ f t i => scaleBytes (sessionId f t i)
  | .challengeRoot _ r a b => reasonBytes r ++ (a.toList ++ b.toList)

/-- Votes and reports to the bridge. Models `pallets/eth-bridge/src/call.rs:72-107`, `pallets/eth-bridge/src/lib.rs:1064-1188`,
`primitives/avn-common/src/event_discovery.rs:182-200`. -/
inductive Bridge where
  | confirmation (id : Nat) (signature : Bytes 65) (author : Acct)
  | ethTxHash (id : Nat) (hash : Hash) (author : Acct)
  | corroboration (id : Nat) (succeeded hashValid : Bool) (author : Acct) (replay : Nat)
  | events (author : Acct) (partition : List UInt8)
  | latestBlock (author : Acct) (block : Nat)
deriving DecidableEq

/-- The contexts. Models `primitives/avn-common/src/context_constants.rs:1-5`. -/
def Bridge.context : Bridge → List UInt8
  | .confirmation .. => ascii "EthBridgeConfirmation"
  | .ethTxHash .. => ascii "EthBridgeEthTxHash"
  | .corroboration .. => ascii "EthBridgeCorroboration"
  | .events .. => ascii "EthBridgeDiscoveredEthEventsHash"
  | .latestBlock .. => ascii "EthBridgeLatestEthereumBlockHash"

/-- What follows the context. Models the lines cited at `Bridge`. -/
def Bridge.body : Bridge → List UInt8
  | .confirmation i s a => leBytes 4 i ++ (s.toList ++ a.toList)
  | .ethTxHash i h a => leBytes 4 i ++ (h.toList ++ a.toList)
  | .corroboration i s v a r => leBytes 4 i ++ (boolByte s ++ (boolByte v ++ (a.toList ++ leBytes 2 r)))
  | .events a p => a.toList ++ p
  | .latestBlock a b => a.toList ++ leBytes 4 b

/-- Everything signed with an AvN key: reports, bridge reports (after the hash of the bridge instance), requests to the external service for an
Ethereum signature (`pallets/eth-bridge/src/eth.rs:16-26`) and to send a transaction (`pallets/eth-bridge/src/eth.rs:289-305`). -/
inductive Signed where
  | report (r : Report)
  | bridge (instanceHash : Hash) (b : Bridge)
  | signRequest (msgHash : Hash)
  | sendRequest (author : Acct) (contract : Addr) (calldata : List UInt8)
deriving DecidableEq

/-- The bytes that are signed. Models the lines cited at `Report`, `Bridge` and `Signed`. -/
def Signed.payload : Signed → List UInt8
  | .report r => scaleBytes r.context ++ r.body
  | .bridge h b => h.toList ++ (scaleBytes b.context ++ b.body)
  | .signRequest h => h.toList
  | .sendRequest a c d => a.toList ++ (c.toList ++ scaleBytes d)

end Verif.Payloads
