import Verif.Model.BridgeOffence
import Verif.Model.Summary
import Verif.Model.EthereumEvents

/-!
# The reports of all pallets together

The summary pallet, the pallet of manually submitted Ethereum events, the bridge and `pallet_im_online` report offences. Each report goes
through the same `pallet_offences` (`runtime/avn/src/configs/mod.rs:324-328, 349, 397, 435, 517`) to the offence handler. The single models
stay as they are; the reports of a step are the offence entries it adds to the log of its pallet. `pallet_offences` and `pallet_im_online` are
dependencies; what the former does with a report follows its source, the reports of the latter are arbitrary. Every account can be
identified as an offender (`runtime/avn/src/configs/mod.rs:257, 317-322`). The enforcer's answers (`slash`) are arbitrary.
-/

namespace Verif.OffenceBook

/-- `Offence::ID`: what kind of offence a report is filed under. Models `pallets/eth-bridge/src/offence.rs:28`,
`pallets/summary/src/offence.rs:40`, `pallets/ethereum-events/src/offence.rs:36`. -/
inductive Kind where
  | bridge | summary | log | unresponsive
deriving DecidableEq, Repr

/-- The type of an offence, as in the events. Models `pallets/eth-bridge/src/offence.rs:12-17`, `pallets/summary/src/offence.rs:15-24`,
`pallets/ethereum-events/src/offence.rs:15-19`. -/
inductive Label where
  | bridge (k : BridgeOffence.Kind)
  | summary (k : Summary.Offence)
  | incorrectResult
  | challengedValid
  | unresponsive
deriving DecidableEq, Repr

/-- The kind each type is filed under: all types of one pallet share a kind. Models `pallets/eth-bridge/src/offence.rs:27-50`,
`pallets/summary/src/offence.rs:39-62`, `pallets/ethereum-events/src/offence.rs:35-58`. -/
def Label.kind : Label → Kind
  | .bridge _ => .bridge
  | .summary _ => .summary
  | .incorrectResult => .log
  | .challengedValid => .log
  | .unresponsive => .unresponsive

/-- `pallet_offences` (`known kind session`: the accounts reported, in order of their first report; a name repeated within one report is kept twice, which nobody observes), the session index, the offence handler, and
the reporting pallets' events. -/
structure Book where
  session : Nat
  known : Kind → Nat → List Nat
  handler : Offence.State
  events : List (Label × List Nat)

/-- `create_and_report_*_offence`, the same in the three pallets. Nothing is done about nobody, nor if all offenders have been reported under
this kind in this session; otherwise `pallet_offences` adds the new ones and hands all accounts it has of this kind and session to the
handler, and the event is deposited. Models `pallets/summary/src/offence.rs:77-112`,
`pallets/ethereum-events/src/offence.rs:72-107`, `pallets/eth-bridge/src/offence.rs:62-97`. -/
def file (acct : Nat → Acct) (slash : Nat → Bool) (b : Book) (r : Label × List Nat) : Book :=
  if r.2 = [] then b
  else if r.2.all (fun x => (b.known r.1.kind b.session).contains x) then b
  else
    let concurrent := b.known r.1.kind b.session ++ (r.2.filter fun x => !(b.known r.1.kind b.session).contains x)
    { b with
      known := upd b.known r.1.kind (upd (b.known r.1.kind) b.session concurrent)
      handler := Offence.onOffence (concurrent.map fun x => (acct x, slash x)) b.handler
      events := b.events ++ [r] }

/-- All reports of a call, in order. -/
def fileAll (acct : Nat → Acct) (slash : Nat → Bool) (b : Book) (rs : List (Label × List Nat)) : Book := rs.foldl (file acct slash) b

/-- The chain: the pallets that report, and the book. -/
structure Chain (W V E : Type) where
  tx : BridgeTx.State W
  ev : EthBridge.State V
  sum : Summary.State
  logs : EthEvents.State E
  book : Book

/-- Outside behaviour the pallets depend on, as in their models. -/
structure Env (W V E : Type) where
  tx : BridgeTx.Env W
  ev : V → EthBridge.EthEvent → V × Bool
  refOf : Summary.RootId → Nat → Nat
  logs : EthEvents.EthEvent → E → E × Bool
  acct : Nat → Acct

/-- What happens. -/
inductive Step (W V E : Type) where
  | bridgeTx (slash : Nat → Bool) (op : BridgeTx.Step W)
  | bridgeEv (slash : Nat → Bool) (op : EthBridge.Step V)
  | summary (slash : Nat → Bool) (op : Summary.Step)
  | logs (slash : Nat → Bool) (op : EthEvents.Step E)
  | unresponsive (slash : Nat → Bool) (who : List Nat)
  | newSession
  | register (v : Acct)
  | configure (root enabled : Bool)

/-- The reports in the log of the summary pallet. Models `pallets/summary/src/lib.rs:673-677, 1160-1164, 1385-1389, 1413-1423`. -/
def summaryReports (es : List Summary.Event) : List (Label × List Nat) :=
  es.filterMap fun | .offence k who => some (.summary k, who) | _ => none

/-- The announcement of a successful challenge. -/
def isSuccess : Nat × EthEvents.Obs → Bool
  | (_, .challengeSucceeded ..) => true
  | _ => false

/-- An offence entry as a report. -/
def asReport (l : Label) : Nat × EthEvents.Obs → Option (Label × List Nat)
  | (_, .offence who) => some (l, who)
  | _ => none

/-- The reports in the log of the Ethereum events pallet; after a successful challenge the checker is accused, otherwise the
challengers. Models `pallets/ethereum-events/src/lib.rs:590-613`. -/
def logReports (es : List (Nat × EthEvents.Obs)) : List (Label × List Nat) :=
  es.filterMap (asReport (if es.any isSuccess then .incorrectResult else .challengedValid))

variable {W V E : Type} (env : Env W V E)

/-- The reports a step makes. -/
def reports (c : Chain W V E) : Step W V E → List (Label × List Nat)
  | .bridgeTx _ op => (BridgeOffence.stepTx env.tx c.tx op).2.map fun r => (.bridge r.kind, r.who)
  | .bridgeEv _ op => (BridgeOffence.stepEv env.ev c.ev op).2.map fun r => (.bridge r.kind, r.who)
  | .summary _ op => summaryReports ((Summary.step env.refOf c.sum op).log.drop c.sum.log.length)
  | .logs _ op => logReports ((EthEvents.step env.logs c.logs op).log.drop c.logs.log.length)
  | .unresponsive _ who => [(.unresponsive, who)]
  | _ => []

/-- One step. -/
def step (c : Chain W V E) (op : Step W V E) : Chain W V E :=
  match op with
  | .bridgeTx slash o =>
    { c with tx := (BridgeOffence.stepTx env.tx c.tx o).1, book := fileAll env.acct slash c.book (reports env c op) }
  | .bridgeEv slash o =>
    { c with ev := (BridgeOffence.stepEv env.ev c.ev o).1, book := fileAll env.acct slash c.book (reports env c op) }
  | .summary slash o =>
    { c with sum := Summary.step env.refOf c.sum o, book := fileAll env.acct slash c.book (reports env c op) }
  | .logs slash o =>
    { c with logs := EthEvents.step env.logs c.logs o, book := fileAll env.acct slash c.book (reports env c op) }
  | .unresponsive slash _ => { c with book := fileAll env.acct slash c.book (reports env c op) }
  | .newSession => { c with book := { c.book with session := c.book.session + 1 } }
  | .register v => { c with book := { c.book with handler := Offence.onRegistration v c.book.handler } }
  | .configure root enabled => { c with book := { c.book with handler := Offence.configureSlashing root enabled c.book.handler } }

/-- A history. -/
def run (c : Chain W V E) (steps : List (Step W V E)) : Chain W V E := steps.foldl (step env) c

end Verif.OffenceBook
