import Verif.Model.EthBridgeTx

/-!
# The off-chain worker of `pallets/eth-bridge`

One run of the worker of one author in a given state. The external service that signs, sends and queries Ethereum is arbitrary (`Service`);
the worker's action is the unsigned call it submits, if any. The lock that keeps a node from running twice in a block is not modelled.
-/

namespace Verif.BridgeTx

variable {W : Type}

/-- What the external service of an author's node answers: the ECDSA signature of a hash, the hash of a sent transaction, and
`eth::corroborate` (`Calldata.corroborate`: status and validity of the hash). `none` = an error. `locked` = the lock that
protects against sending twice is held. Models `pallets/eth-bridge/src/eth.rs:16-26,77-119`, `pallets/eth-bridge/src/lib.rs:916-930`. -/
structure Service where
  sign : Nat → Option Nat
  send : Active → Option Nat
  report : Active → Option (Option Bool × Option Bool)
  locked : Nat → Bool

/-- `process_active_tx_request`. Models `pallets/eth-bridge/src/lib.rs:906-947`. -/
def workTx (sv : Service) (s : State W) (req : Active) (r : SendReq) (d : TxData) (author : Nat) (enough : Bool) : Option (Step W) :=
  if author = d.sender ∧ enough = true ∧ d.ethTxHash = 0 then
    if sv.locked r.txId then none
    else match sv.send req with
      | none => none
      | some h => some (.ethTxHash r.txId h author)
  else if author ≠ d.sender ∧ (d.ethTxHash ≠ 0 ∨ s.now > d.expiry) then
    if author ∉ d.success ∧ author ∉ d.failure then
      match sv.report req with
      | some (some status, valid) => some (.corroborate r.txId status (valid.getD false) author d.replay)
      | _ => none
    else none
  else none

/-- Sign the message and submit the confirmation unless it is there already.
Models `pallets/eth-bridge/src/lib.rs:871-879,886-890`. -/
def workConfirm (sv : Service) (req : Active) (id author : Nat) : Option (Step W) :=
  match sv.sign req.msgHash with
  | none => none
  | some sig => if sig ∈ req.confirmations then none else some (.confirm id sig author)

/-- `process_active_request`: the call submitted by `author`'s worker in state `s`. Models `pallets/eth-bridge/src/lib.rs:853-904`. -/
def work (sv : Service) (finalised : Nat) (s : State W) (author : Nat) : Option (Step W) :=
  match s.active with
  | none => none
  | some req =>
    if finalised < req.lastUpdated then none
    else
      match req.request with
      | .lower r =>
        if enoughConfirmations s req.request req.confirmations.length then none else workConfirm sv req r.lowerId author
      | .send r =>
        match req.txData with
        | none => none
        | some d =>
          if author ≠ d.sender ∧ enoughConfirmations s req.request req.confirmations.length = false then workConfirm sv req r.txId author
          else workTx sv s req r d author (enoughConfirmations s req.request req.confirmations.length)

end Verif.BridgeTx
