import Verif.Model.Authority
import Verif.Model.Membership
import Verif.Model.EthBridgeTx
import Verif.Model.EthBridgeEvents
import Verif.Model.Summary
import Verif.Model.EthereumEvents
import Verif.Model.Anchor
import Verif.Model.Fees
import Verif.Model.Offence
import Verif.Model.TokenManager

/-!
# The pallets under the dispatcher

`Model/Authority` says which calls are carried out, and under which origin, but not what they do; the models of the pallets say what root's calls do, but
let them happen at any time. Here the two are put together, for one pallet at a time: a step of a pallet that is a call of root happens only together with a
step of the dispatcher that carries out this call. Everything else a pallet can do (calls of users and validators, hooks, other pallets) stays unrestricted.
-/

namespace Verif.Governed

open Verif.Authority (Leaf Origin Env)

/-- A pallet: its states and steps (`Model/…`), and which of its steps are calls that ask for root. -/
structure Pallet where
  State : Type
  Step : Type
  step : State → Step → State
  rootCall : Step → Option Leaf

/-- A step of the pallet is possible together with these newly carried out calls. -/
def possible (P : Pallet) (new : List (Origin × Leaf)) (x : P.Step) : Bool :=
  match P.rootCall x with
  | none => true
  | some l => new.any fun e => decide (e.2 = l)

/-- One step of the dispatcher, with what the pallet does in the meantime. -/
def step (E : Env) (P : Pallet) (c : Authority.Chain × P.State) (x : Authority.Step × List P.Step) : Authority.Chain × P.State :=
  let a := Authority.step E c.1 x.1
  (a, (x.2.filter (possible P (a.log.drop c.1.log.length))).foldl P.step c.2)

/-- A history. -/
def run (E : Env) (P : Pallet) (c : Authority.Chain × P.State) (h : List (Authority.Step × List P.Step)) : Authority.Chain × P.State :=
  h.foldl (step E P) c

/-! ### Conditions on what a pallet does -/

/-- A condition on each of these steps, in the state it is made in. -/
def Each (P : Pallet) (Q : P.State → P.Step → Prop) : P.State → List P.Step → Prop
  | _, [] => True
  | s, x :: xs => Q s x ∧ Each P Q (P.step s x) xs

/-- A condition on every step the pallet makes in a history. -/
def Along (E : Env) (P : Pallet) (Q : P.State → P.Step → Prop) : Authority.Chain × P.State → List (Authority.Step × List P.Step) → Prop
  | _, [] => True
  | c, x :: h => Each P Q c.2 (x.2.filter (possible P ((Authority.step E c.1 x.1).log.drop c.1.log.length))) ∧ Along E P Q (step E P c x) h

/-! ### The pallets -/

/-- `validators-manager`, staking and the session pallet. Root's calls: `pallets/validators-manager/src/lib.rs:275, 307, 327`,
`pallets/parachain-staking/src/lib.rs:797, 816, 1663`. -/
def membership (E : Staking.EPar) (minV : Nat) : Pallet where
  State := Membership.Chain
  Step := Membership.Step
  step := Membership.step E minV
  rootCall
    | .addCollator .. => some .addCollator
    | .removeValidator .. => some .removeValidator
    | .rotateEthKey .. => some .rotateValidatorEthereumKey
    | .staking (.setTotalSelected _) => some .setTotalSelected
    | .staking (.setBlocksPerEra _) => some .setBlocksPerEra
    | .staking (.ledger (.setDelay _)) => some .stakingSetAdminSetting
    | .staking (.ledger (.setMinCollator _)) => some .stakingSetAdminSetting
    | .staking (.ledger (.setMinTotal _)) => some .stakingSetAdminSetting
    | _ => none

/-- The token manager. Root's calls: `pallets/token-manager/src/lib.rs:473, 500, 625, 636, 655`. Taking a lower off the scheduler's agenda is a call of the
scheduler, not of this pallet: it stays unrestricted. -/
def tokens : Pallet where
  State := TokenManager.State
  Step := TokenManager.Env × TokenManager.Step
  step := fun s x => (TokenManager.step x.1 s x.2).1
  rootCall := fun x => match x.2 with
    | .rootTreasury .. => some .transferFromTreasury
    | .rootExecuteLower c _ => some (.executeLower c.sender)
    | .rootSetPeriod _ => some .setLowerSchedulePeriod
    | .rootToggleLowering _ => some .toggleLowering
    | .rootSetNative _ => some .setNativeTokenEthAddress
    | _ => none

/-- The bridge's transactions. Root's calls: `pallets/eth-bridge/src/lib.rs:649`. -/
def bridgeTx (W : Type) (env : BridgeTx.Env W) : Pallet where
  State := BridgeTx.State W
  Step := BridgeTx.Step W
  step := BridgeTx.step env
  rootCall
    | .removeActive => some .bridgeSetAdminSetting
    | .setTxId _ => some .bridgeSetAdminSetting
    | .setInstance .. => some .bridgeSetAdminSetting
    | _ => none

/-- The bridge's events. Root's calls: `pallets/eth-bridge/src/lib.rs:649`. -/
def bridgeEvents (V : Type) (handler : V → EthBridge.EthEvent → V × Bool) : Pallet where
  State := EthBridge.State V
  Step := EthBridge.Step V
  step := EthBridge.step handler
  rootCall
    | .admin .. => some .bridgeSetAdminSetting
    | _ => none

/-- Summaries. Root's calls: `pallets/summary/src/lib.rs:470, 701, 756`. -/
def summary (refOf : Summary.RootId → Nat → Nat) : Pallet where
  State := Summary.State
  Step := Summary.Step
  step := Summary.step refOf
  rootCall
    | .setPeriods .. => some .setPeriods
    | .setSchedule _ => some .setAdminConfig
    | .setVoting _ => some .setAdminConfig
    | .setThreshold _ => some .setAdminConfig
    | .adminResolve .. => some .adminResolveChallenge
    | _ => none

/-- Manually submitted events. Root's calls: `pallets/ethereum-events/src/lib.rs:796`. -/
def events (V : Type) (handler : EthEvents.EthEvent → V → V × Bool) : Pallet where
  State := EthEvents.State V
  Step := EthEvents.Step V
  step := EthEvents.step handler
  rootCall
    | .setPeriod _ => some .setEventChallengePeriod
    | _ => none

/-- Anchoring. Root's calls: `pallets/avn-anchor/src/lib.rs:364`. -/
def anchor : Pallet where
  State := Anchor.State
  Step := Anchor.Step
  step := Anchor.step
  rootCall
    | .setFee true .. => some .setCheckpointFee
    | _ => none

/-- The two calls about known senders. -/
def feeCall : Fees.Admin → Leaf
  | .set .. => .setKnownSender
  | .remove _ => .removeKnownSender

/-- Fees. Root's calls: `pallets/avn-transaction-payment/src/lib.rs:114, 172`, by themselves or inside a transaction. -/
def fees (pot : Acct) : Pallet where
  State := Fees.State
  Step := Fees.Step
  step := Fees.step pot
  rootCall
    | .admin a => some (feeCall a)
    | .tx _ _ _ _ _ _ (some a) => some (feeCall a)
    | _ => none

/-- Offences. Root's calls: `pallets/avn-offence-handler/src/lib.rs:104`. -/
def offences : Pallet where
  State := Offence.State
  Step := Offence.Step
  step := Offence.step
  rootCall
    | .configure true _ => some .configureSlashing
    | _ => none

end Verif.Governed
