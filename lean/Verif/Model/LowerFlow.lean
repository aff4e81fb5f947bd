import Verif.Model.TokenManager
import Verif.Model.EthBridgeTx

/-!
# Lowers end to end: the token manager and the bridge wired together

The token manager asks the bridge for a lower proof (`T::BridgeInterface::generate_lower_proof`), the bridge answers it
(`T::BridgeInterfaceNotification::process_lower_proof_result`). Wiring: `runtime/avn/src/configs/mod.rs:308,416,437,462`
(`BridgeInterface = EthBridge`) and `:519` (`BridgeInterfaceNotification = (Summary, TokenManager, ParachainStaking,
ValidatorsManager)`; only the token manager implements `process_lower_proof_result`, the others inherit the empty default of
`pallets/avn/src/lib.rs:837-839`).

The 116 parameter bytes travel through the bridge model as one number, their big-endian value.
-/

namespace Verif.LowerFlow

open Verif.TokenManager (Env Step)

/-- `PALLET_ID` (pallets/token-manager/src/lib.rs:102). -/
def palletId : List UInt8 := ascii "token_manager"

/-- Length of the bytes of a lower proof: 116 bytes of parameters, 65 per signature
(pallets/eth-bridge/src/eth.rs:157-165,189-199). -/
def proofLength (sigs : List Nat) : Nat := 116 + 65 * sigs.length

/-- The functions the bridge model leaves open, and what the other pallets (state `X`) do with the result of a sent
transaction. -/
structure Params (X : Type) where
  validUtf8 : List UInt8 → Bool
  fnHash : List UInt8 → List BridgeTx.Param → Nat → Option Nat
  lowerHash : Nat → Nat → Option Nat
  signer : Nat → Nat → Option Nat
  onResult : X → Nat → List UInt8 → Bool → X × Bool
  maxQueued : Nat

/-- What the bridge sees of the rest of the runtime: the token manager and everything else. -/
abbrev World (X : Type) := TokenManager.State × X

/-- The bridge with its notifications connected: `process_result` does nothing in the token manager
(pallets/token-manager/src/lib.rs:1208-1210), `process_lower_proof_result` is the token manager's (`:1212-1237`). -/
def bridgeEnv {X : Type} (p : Params X) : BridgeTx.Env (World X) where
  validUtf8 := p.validUtf8
  fnHash := p.fnHash
  lowerHash := p.lowerHash
  signer := p.signer
  onResult := fun w id caller ok => ((w.1, (p.onResult w.2 id caller ok).1), (p.onResult w.2 id caller ok).2)
  onLower := fun w id caller proof =>
    let r := TokenManager.processLowerProofResult w.1 id (caller == palletId) (proof.map (fun q => proofLength q.2))
    ((r.1, w.2), r.2.isNone)
  maxQueued := p.maxQueued

/-- Both pallets and the rest of the runtime. -/
abbrev State (X : Type) := BridgeTx.State (World X)

/-- The lower id for which a call, if it gets that far, asks the bridge for a proof: `settle_lower`
(pallets/token-manager/src/lib.rs:793, from `execute_lower`, scheduled or by root) and `regenerate_proof` (`:849`). -/
def requested (s : TokenManager.State) : Step → Option Nat
  | .dispatchScheduled i => if (s.scheduled i).isSome then some i else none
  | .rootExecuteLower _ i => some i
  | .regenerateLowerProof _ i => some i
  | _ => none

/-- A call of the token manager. The request to the bridge is the last action of `settle_lower` and `regenerate_proof` and
carries the parameters just stored as pending (pallets/token-manager/src/lib.rs:792-793,848-849); its failure fails the
call. `env.bridgeOk` is ignored: it is what the bridge really answers. -/
def tokenStep {X : Type} (p : Params X) (s : State X) (env : Env) (st : Step) : State X :=
  let ok := TokenManager.step { env with bridgeOk := true } s.world.1 st
  match requested s.world.1 st with
  | none => { s with world := (ok.1, s.world.2) }
  | some i =>
    match ok.2, ok.1.pending i with
    | none, some params =>
      let b := BridgeTx.generateLowerProof (bridgeEnv p) { s with world := (ok.1, s.world.2) } i (beVal params) palletId
      match b.2 with
      | .ok _ => b.1
      | .error _ =>
        { s with world := ((TokenManager.step { env with bridgeOk := false } s.world.1 st).1, s.world.2) }
    | _, _ => { s with world := (ok.1, s.world.2) }

/-- Everything that happens to the two pallets. -/
inductive Op (X : Type) where
  | token (env : Env) (st : Step)
  | bridge (op : BridgeTx.Step (World X))

/-- One step. Proof results come only from the bridge and proof requests only from the token manager (the only caller of
`generate_lower_proof` in the repository); other activity (`external`) does not touch the token manager. -/
def step {X : Type} (p : Params X) (s : State X) : Op X → State X
  | .token _ (.lowerProofResult ..) => s
  | .token env st => tokenStep p s env st
  | .bridge (.lowerProof ..) => s
  | .bridge (.external w avn now block lifetime) =>
    BridgeTx.step (bridgeEnv p) s (.external (s.world.1, w.2) avn now block lifetime)
  | .bridge op => BridgeTx.step (bridgeEnv p) s op

/-- A history. -/
def run {X : Type} (p : Params X) (s : State X) (ops : List (Op X)) : State X := ops.foldl (step p) s

end Verif.LowerFlow
