import Verif.Model.ProxyCalls
import Verif.Model.TokenManager

/-!
# Proxy pallet
pallets/avn-proxy/src/lib.rs
-/

namespace Verif.Proxy
open Verif.ProxyCalls

/-- Everything outside the pallet: the token manager (which is the runtime's `FeeHandler`, runtime/avn/src/configs/mod.rs:485)
and the rest. -/
structure World (R : Type) where
  tm : TokenManager.State
  rest : R

/-- The runtime around the pallet. `nonces` reads the nonces of the other pallets, `dispatch` runs a call with a signed origin
(`none` when it returns an error; `Dispatchable::dispatch` is a storage layer, so an error leaves no writes). Both are
arbitrary. -/
structure Runtime (R : Type) where
  crypto : Crypto
  nonces : World R → Nonces
  dispatch : Acct → Call → World R → Option (World R)

/-- What can be observed. -/
inductive Obs where
  /-- A fee was paid for the proxied call of `proof`, authorised with this nonce. -/
  | paid (proof : Proof) (info : PaymentInfo) (nonce : Nat)
  /-- The inner call was run with origin `signer`; `ok` is its result (`CallDispatched` / `InnerCallFailed`, lib.rs:96-97). -/
  | dispatched (signer : Acct) (call : Call) (ok : Bool)
  /-- `InnerCallFailed` because the inner signature is not valid (lib.rs:155-165); nothing was dispatched. -/
  | rejected (relayer : Acct) (call : Call)
deriving DecidableEq

/-- Storage: the world and `PaymentNonces` (lib.rs:108-113, `u64`), and the observations. -/
structure State (R : Type) where
  world : World R
  payNonce : Acct → U64
  log : List Obs

/-- pallets/avn-proxy/src/lib.rs:103-107 `Error`, and errors of the fee payment. -/
inductive Err where
  | notSupported | unauthorizedFee | unauthorizedProxy | fee (e : TokenManager.Err)
deriving DecidableEq

/-- pallets/avn-proxy/src/lib.rs:200-230 `verify_payment_authorisation_signature`. -/
def paymentAuthorised (cr : Crypto) (p : Proof) (i : PaymentInfo) (nonce : U64) : Bool :=
  verifySignature cr { signer := i.payer, relayer := i.payer, signature := i.signature } (paymentPayload p i nonce)

/-- The state after the fee was moved: pallets/avn-proxy/src/lib.rs:252. -/
def paidState {R : Type} (p : Proof) (i : PaymentInfo) (tm : TokenManager.State) (s : State R) : State R :=
  { world := { s.world with tm := tm },
    payNonce := upd s.payNonce i.payer (s.payNonce i.payer + 1),
    log := s.log ++ [.paid p i (s.payNonce i.payer).val] }

/-- pallets/avn-proxy/src/lib.rs:232-254 `charge_fee`, with `pay_fee` (pallets/token-manager/src/lib.rs:1250-1257). The
`n += 1` wraps in release builds. -/
def chargeFee {R : Type} (rt : Runtime R) (env : TokenManager.Env) (p : Proof) (i : PaymentInfo) (s : State R) :
    State R × Option Err :=
  if paymentAuthorised rt.crypto p i (s.payNonce i.payer) then
    match TokenManager.settleTransfer env s.world.tm i.token i.payer i.recipient i.amount.val with
    | (tm, none) => (paidState p i tm s, none)
    | (_, some e) => (s, some (.fee e))
  else (s, some .unauthorizedFee)

/-- pallets/avn-proxy/src/lib.rs:150-186: after the fee. -/
def runInner {R : Type} (rt : Runtime R) (relayer : Acct) (p : Proof) (c : Call) (s : State R) : State R :=
  if signatureIsValid rt.crypto (rt.nonces s.world) c then
    match rt.dispatch p.signer c s.world with
    | some w => { s with world := w, log := s.log ++ [.dispatched p.signer c true] }
    | none => { s with log := s.log ++ [.dispatched p.signer c false] }
  else { s with log := s.log ++ [.rejected relayer c] }

/-- pallets/avn-proxy/src/lib.rs:125-188 `proxy`. Weights are not modelled. The extrinsic is transactional: an error leaves the
state as it was (every error is raised before any write or by `charge_fee`, which then wrote nothing). -/
def proxy {R : Type} (rt : Runtime R) (env : TokenManager.Env) (relayer : Acct) (c : Call) (payment : Option PaymentInfo)
    (s : State R) : State R × Option Err :=
  match c.proof? with
  | none => (s, some .notSupported)
  | some p =>
    if relayer ≠ p.relayer then (s, some .unauthorizedProxy)
    else
      match payment with
      | none => (runInner rt relayer p c s, none)
      | some i =>
        match chargeFee rt env p i s with
        | (_, some e) => (s, some e)
        | (s1, none) => (runInner rt relayer p c s1, none)

/-- What happens to the chain: proxied calls, and anything else, which can change the world but not `PaymentNonces` (only
`charge_fee` writes it). -/
inductive Step (R : Type) where
  | proxy (env : TokenManager.Env) (relayer : Acct) (c : Call) (payment : Option PaymentInfo)
  | elsewhere (f : World R → World R)

/-- One step. -/
def step {R : Type} (rt : Runtime R) (s : State R) : Step R → State R
  | .proxy env r c p => (Proxy.proxy rt env r c p s).1
  | .elsewhere f => { s with world := f s.world }

/-- Genesis: all payment nonces are zero. -/
def init {R : Type} (w : World R) : State R := { world := w, payNonce := fun _ => 0, log := [] }

/-- A history. -/
def run {R : Type} (rt : Runtime R) (w : World R) (steps : List (Step R)) : State R := steps.foldl (step rt) (init w)

end Verif.Proxy
