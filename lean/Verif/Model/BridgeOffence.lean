import Verif.Model.EthBridgeTx
import Verif.Model.EthBridgeEvents
import Verif.Model.Offence

/-!
# Offences reported by the bridge

`Model/EthBridgeTx` and `Model/EthBridgeEvents` leave out the offence reports. Here the functions that report are modelled again, returning
the reports next to the new state (that the states agree is proved: `stepTx_state`, `stepEv_state`), and the way of a report through
`pallet_offences` to the offence handler is added. `pallet_offences` is a dependency; what it does with a report (`fileReport`) follows its
source. Every account can be identified as an offender, because the runtime's `ValidatorIdOf` and `FullIdentificationOf` are
`ConvertInto` (`runtime/avn/src/configs/mod.rs`).
-/

namespace Verif.BridgeOffence

/-- `EthBridgeOffenceType`. Models `pallets/eth-bridge/src/offence.rs:12-17`. -/
inductive Kind where
  | challengedSuccess
  | challengedFailure
  | invalidRange
deriving DecidableEq, Repr

/-- A call of `create_and_report_bridge_offence`. Models `pallets/eth-bridge/src/offence.rs:62-66`. -/
structure Report where
  kind : Kind
  reporter : Nat
  who : List Nat
deriving DecidableEq, Repr

/-! ### Outcomes of transactions -/

section Tx

open BridgeTx

variable {W : Type} (env : Env W)

/-- The reports of `complete_transaction`. Models `pallets/eth-bridge/src/tx.rs:24-46`. -/
def txReports (d : TxData) (ok : Bool) : List Report :=
  if ok then
    if d.failure = [] then [] else [{ kind := .challengedSuccess, reporter := d.sender, who := d.failure }]
  else
    if d.success = [] then [] else [{ kind := .challengedFailure, reporter := d.sender, who := d.success }]

/-- `complete_transaction` with its reports. Models `pallets/eth-bridge/src/tx.rs:10-63`. -/
def completeR (s : State W) (r : SendReq) (d : TxData) (ok : Bool) : Except Err (State W × List Report) :=
  let n := env.onResult s.world r.txId r.callerId ok
  if n.2 = false then .error .notificationFailed
  else
    let hash := if ok && enoughCorroborations s d.invalidHash.length then 0 else d.ethTxHash
    let t : Settled := { name := r.name, params := d.params, sender := d.sender, ethTxHash := hash, succeeded := ok }
    .ok (processNext env { s with
      world := n.1
      settled := upd s.settled r.txId (some t)
      log := s.log ++ [.result r.txId r.callerId ok] }, txReports d ok)

/-- `finalize_state` with its reports; a replay reports nobody. Models `pallets/eth-bridge/src/tx.rs:66-80`. -/
def finalizeR (s : State W) (r : SendReq) (d : TxData) (ok : Bool) : Except Err (State W × List Report) :=
  if !ok && enoughCorroborations s d.invalidHash.length then
    match setUpTx env s r (min (d.replay + 1) 65535) with
    | .ok s' => .ok (s', [])
    | .error e => .error e
  else completeR env s r d ok

/-- `add_corroboration` with its reports. Models `pallets/eth-bridge/src/lib.rs:517-573`. -/
def corroborateR (s : State W) (txId : Nat) (ok hashValid : Bool) (author replay : Nat) :
    Except Err (State W × List Report) :=
  match s.active with
  | none => .ok (s, [])
  | some req =>
    if req.request.idMatches txId = false then .ok (s, [])
    else match req.txData with
      | none => .ok (s, [])
      | some d =>
        if replay ≠ d.replay then .error .invalidCorroborationData
        else if author = d.sender then .error .ownTransaction
        else if author ∈ d.success ∨ author ∈ d.failure then .ok (s, [])
        else if (if hashValid then d.validHash else d.invalidHash).length ≥ confirmationsLimit then
          .error .corroborationLimit
        else
          if (if ok then d.success else d.failure).length ≥ confirmationsLimit then .error .corroborationLimit
          else
            let d2 := addCorr d ok hashValid author
            if enoughCorroborations s (if ok then d2.success else d2.failure).length then
              match req.request with
              | .send r => finalizeR env s r d2 ok
              | .lower _ => .error .invalidCorroborationData
            else .ok ({ s with active := some { req with txData := some d2, lastUpdated := s.block } }, [])

/-- One step with its reports: only `add_corroboration` makes any; a failed call leaves no trace.
Models `pallets/eth-bridge/src/lib.rs:517-573`. -/
def stepTx (s : State W) (op : Step W) : State W × List Report :=
  match op with
  | .corroborate id ok hv a rep =>
    if Avn.isValidator s.avn.validators a then
      match corroborateR env s id ok hv a rep with
      | .ok r => r
      | .error _ => (s, [])
    else (s, [])
  | op => (step env s op, [])

end Tx

/-! ### Ethereum events -/

section Ev

open EthBridge

variable {W : Type} (handler : W → EthEvent → W × Bool)

/-- The reports of the clean-up of `process_ethereum_events_partition`: one for each entry still in the map. An entry without voters makes
no report. Models `pallets/eth-bridge/src/lib.rs:1014-1023`, `pallets/eth-bridge/src/offence.rs:67-69`. -/
def evReports (author : Nat) (votes : List (Partition × List Nat)) : List Report :=
  (votes.filter fun e => e.2 ≠ []).map fun e => { kind := .invalidRange, reporter := author, who := e.2 }

/-- `process_ethereum_events_partition` with its reports. Models `pallets/eth-bridge/src/lib.rs:970-1024`. -/
def processPartitionR (s : State W) (network : Nat) (a : Active) (p : Partition) (author : Nat) : State W × List Report :=
  let s1 := { s with votes := s.votes.filter (fun e => e.1 ≠ p) }
  let s2 := p.events.foldl (processDiscovered handler network a) s1
  ({ s2 with votes := [] }, evReports author s2.votes)

/-- `submit_ethereum_events` with its reports. Models `pallets/eth-bridge/src/lib.rs:582-635`. -/
def submitEventsR (s : State W) (author : Nat) (p : Partition) : Res W × List Report :=
  if s.instanceValid = false then ((s, some .invalidInstance), [])
  else match s.active with
    | none => ((s, some .nonActiveRange), [])
    | some a =>
      if p.range ≠ a.range ∨ p.number ≠ a.partition then ((s, some .nonActiveRange), [])
      else if hasVoted s.votes author then ((s, some .eventVoteExists), [])
      else match tryInsert votesLimit (lookupVotes s.votes p) author with
        | none => ((s, some .eventVotesFull), [])
        | some vs =>
          let s0 := { s with log := s.log ++ [Obs.eventVote author p] }
          if vs.length < quorum s.authors then (({ s0 with votes := setVotes s.votes p vs }, none), [])
          else
            let s1 := { s0 with log := s0.log ++ [Obs.approved p] }
            let r := processPartitionR handler s1 s.network a p author
            ((advancePartition r.1 a p, none), r.2)

/-- One step with its reports: only `submit_ethereum_events` makes any. Models `pallets/eth-bridge/src/lib.rs:582-635`. -/
def stepEv (s : State W) (op : Step W) : State W × List Report :=
  match op with
  | .submitEvents a p =>
    if isAuthor s a then
      let r := submitEventsR handler s a p
      if r.1.2.isSome then (s, []) else (r.1.1, r.2)
    else (s, [])
  | op => (step handler s op, [])

end Ev

/-! ### From the report to the punishment -/

/-- The storage involved. `known session` are the offenders `pallet_offences` has reports of kind `bridge:::offence` about, with that
session as time slot, in the order of their first report. `events` are the `CorroborationOffenceReported` events.
Models `pallets/eth-bridge/src/offence.rs:19-45`. -/
structure Chain (W V : Type) where
  tx : BridgeTx.State W
  ev : EthBridge.State V
  session : Nat
  known : Nat → List Nat
  handler : Offence.State
  events : List (Kind × List Nat)

/-- `create_and_report_bridge_offence`. A report about nobody, or only about accounts already reported in this session, is dropped;
otherwise `pallet_offences` adds the new offenders and hands *all* offenders of the session to the offence handler. All three types of
offences share one kind. `slash` is the enforcer's answer for each account (it is asked at most once per account). The fractions and the
reporter are not used by the handler. `acct` gives the accounts (numbers in the two halves of the bridge) as the handler writes them. Models `pallets/eth-bridge/src/offence.rs:62-97`,
`pallets/avn-offence-handler/src/lib.rs:121-160`. -/
def fileReport {W V : Type} (acct : Nat → Acct) (slash : Nat → Bool) (c : Chain W V) (r : Report) : Chain W V :=
  if r.who = [] then c
  else if r.who.all (fun x => (c.known c.session).contains x) then c
  else
    let concurrent := c.known c.session ++ (r.who.filter fun x => !(c.known c.session).contains x)
    { c with
      known := upd c.known c.session concurrent
      handler := Offence.onOffence (concurrent.map fun x => (acct x, slash x)) c.handler
      events := c.events ++ [(r.kind, r.who)] }

/-- All reports of a call, in order. -/
def fileReports {W V : Type} (acct : Nat → Acct) (slash : Nat → Bool) (c : Chain W V) (rs : List Report) : Chain W V :=
  rs.foldl (fileReport acct slash) c

/-- What happens on the chain: calls of the two halves of the bridge, a new session, and everything else that reaches the offence
handler (registrations, configuration, reports of other pallets). -/
inductive ChainStep (W V : Type) where
  | tx (slash : Nat → Bool) (op : BridgeTx.Step W)
  | ev (slash : Nat → Bool) (op : EthBridge.Step V)
  | newSession (i : Nat)
  | other (o : Offence.Step)

/-- One step. -/
def Chain.step {W V : Type} (env : BridgeTx.Env W) (handler : V → EthBridge.EthEvent → V × Bool) (acct : Nat → Acct) (c : Chain W V) : ChainStep W V → Chain W V
  | .tx slash op => let r := stepTx env c.tx op; fileReports acct slash { c with tx := r.1 } r.2
  | .ev slash op => let r := stepEv handler c.ev op; fileReports acct slash { c with ev := r.1 } r.2
  | .newSession i => { c with session := i }
  | .other o => { c with handler := Offence.step c.handler o }

/-- A history. -/
def Chain.run {W V : Type} (env : BridgeTx.Env W) (handler : V → EthBridge.EthEvent → V × Bool) (acct : Nat → Acct) (c : Chain W V)
    (steps : List (ChainStep W V)) : Chain W V := steps.foldl (Chain.step env handler acct) c

end Verif.BridgeOffence
