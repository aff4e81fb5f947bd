import Verif.Model.ProxyCalls
import Verif.Model.TokenManager

/-!
# Anchor pallet
pallets/avn-anchor/src/lib.rs
-/

namespace Verif.Anchor
open Verif.ProxyCalls

/-- What can be observed: one entry per successful extrinsic. `auth` is present for the `signed_*` variants and holds the
signed call and the nonce its payload carried. -/
inductive Obs where
  /-- `ChainHandlerRegistered` (lib.rs:123). -/
  | registered (handler : Acct) (chain : U32) (name : List UInt8) (auth : Option Call)
  /-- `ChainHandlerUpdated` (lib.rs:126). -/
  | updated (old new : Acct) (chain : U32) (auth : Option (Call × U64))
  /-- `CheckpointSubmitted` and `CheckpointFeeCharged` (lib.rs:129, 134). -/
  | checkpoint (handler : Acct) (chain : U32) (id : U64) (hash : Hash) (origin : U64) (fee : Nat) (auth : Option (Call × U64))
  /-- `CheckpointFeeUpdated` (lib.rs:131). -/
  | feeSet (chain : U32) (fee : Nat)

/-- Storage (lib.rs:153-206), and the token manager's balances, from which fees are paid. -/
structure State where
  fee : U32 → Nat
  nonces : U32 → U64
  handlers : Acct → Option U32
  chainData : U32 → Option (List UInt8)
  nextChain : U32
  checkpoints : U32 → U64 → Option (Hash × U64)
  originTo : U32 → U64 → Option U64
  nextCheckpoint : U32 → U64
  tm : TokenManager.State
  log : List Obs

/-- lib.rs:138-151 `Error`, and errors of the fee payment. -/
inductive Err where
  | chainNotRegistered | handlerAlreadyRegistered | noAvailableChainId | emptyChainName | noAvailableCheckpointId
  | unauthorizedSigned | senderNotValid | noChainData | originExists | fee (e : TokenManager.Err) | badOrigin
deriving DecidableEq

/-- Result of an extrinsic; extrinsics are transactional, so an error carries no state. -/
abbrev Res := Except Err State

/-- `id.checked_add(1)` (lib.rs:384, 392) on a bounded integer. -/
def checkedSucc {k : Nat} (x : Fin (2 ^ k)) : Option (Fin (2 ^ k)) :=
  if h : x.val + 1 < 2 ^ k then some ⟨x.val + 1, h⟩ else none

/-- lib.rs:397-423 `do_register_chain_handler` with `get_next_chain_id` (381-387). -/
def doRegister (handler : Acct) (name : List UInt8) (auth : Option Call) (s : State) : Res :=
  if (s.handlers handler).isSome then .error .handlerAlreadyRegistered
  else if name = [] then .error .emptyChainName
  else
    match checkedSucc s.nextChain with
    | none => .error .noAvailableChainId
    | some n =>
      .ok { s with
        nextChain := n
        handlers := upd s.handlers handler (some s.nextChain)
        chainData := upd s.chainData s.nextChain (some name)
        nonces := upd s.nonces s.nextChain 0
        log := s.log ++ [.registered handler s.nextChain name auth] }

/-- lib.rs:425-450 `do_update_chain_handler`. -/
def doUpdate (old new : Acct) (chain : U32) (auth : Option (Call × U64)) (s : State) : Res :=
  if (s.handlers new).isSome then .error .handlerAlreadyRegistered
  else if (s.handlers old).isNone then .error .chainNotRegistered
  else
    match s.chainData chain with
    | none => .error .noChainData
    | some _ =>
      .ok { s with
        handlers := upd (upd s.handlers new (some chain)) old none
        log := s.log ++ [.updated old new chain auth] }

/-- lib.rs:452-483 `do_submit_checkpoint` with `get_next_checkpoint_id` (389-395), `charge_fee` (367-379) and `pay_treasury`
(pallets/token-manager/src/lib.rs:1258-1265). The nonce increment wraps in release builds. -/
def doSubmit (env : TokenManager.Env) (handler : Acct) (hash : Hash) (chain : U32) (origin : U64) (auth : Option (Call × U64))
    (s : State) : Res :=
  if (s.originTo chain origin).isSome then .error .originExists
  else
    match checkedSucc (s.nextCheckpoint chain) with
    | none => .error .noAvailableCheckpointId
    | some n =>
      match TokenManager.settleTransfer env s.tm s.tm.avtContract handler env.treasury (s.fee chain) with
      | (_, some e) => .error (.fee e)
      | (tm, none) =>
        .ok { s with
          nextCheckpoint := upd s.nextCheckpoint chain n
          checkpoints := upd s.checkpoints chain (upd (s.checkpoints chain) (s.nextCheckpoint chain) (some (hash, origin)))
          originTo := upd s.originTo chain (upd (s.originTo chain) origin (some (s.nextCheckpoint chain)))
          nonces := upd s.nonces chain (s.nonces chain + 1)
          tm := tm
          log := s.log ++ [.checkpoint handler chain (s.nextCheckpoint chain) hash origin (s.fee chain) auth] }

/-- lib.rs:220-235 `update_chain_handler`, called by `sender`. -/
def updateHandler (sender new : Acct) (s : State) : Res :=
  if (s.handlers new).isSome then .error .handlerAlreadyRegistered
  else
    match s.handlers sender with
    | none => .error .chainNotRegistered
    | some chain => doUpdate sender new chain none s

/-- lib.rs:239-250 `submit_checkpoint_with_identity`. -/
def submitCheckpoint (env : TokenManager.Env) (sender : Acct) (hash : Hash) (origin : U64) (s : State) : Res :=
  match s.handlers sender with
  | none => .error .chainNotRegistered
  | some chain => doSubmit env sender hash chain origin none s

/-- The nonces the anchor payloads read (the other pallets' nonces do not matter). -/
def view (s : State) : Nonces :=
  { token := fun _ => 0, ethEvents := fun _ => 0, staking := fun _ => 0, batch := fun _ => 0, nft := fun _ => none,
    chainOf := s.handlers, chain := s.nonces }

/-- lib.rs:254-273 `signed_register_chain_handler`. -/
def signedRegister (cr : Crypto) (sender : Acct) (proof : Proof) (handler : Acct) (name : SVec UInt8) (s : State) : Res :=
  if sender ≠ handler then .error .senderNotValid
  else if signatureIsValid cr (view s) (.registerChainHandler proof handler name) then
    doRegister handler name.val (some (.registerChainHandler proof handler name)) s
  else .error .unauthorizedSigned

/-- lib.rs:276-308 `signed_update_chain_handler`: the nonce is bumped after the update. -/
def signedUpdate (cr : Crypto) (sender : Acct) (proof : Proof) (old new : Acct) (s : State) : Res :=
  if sender ≠ old then .error .senderNotValid
  else
    match s.handlers old with
    | none => .error .chainNotRegistered
    | some chain =>
      if signatureIsValid cr (view s) (.updateChainHandler proof old new) then
        match doUpdate old new chain (some (.updateChainHandler proof old new, s.nonces chain)) s with
        | .error e => .error e
        | .ok s1 => .ok { s1 with nonces := upd s1.nonces chain (s1.nonces chain + 1) }
      else .error .unauthorizedSigned

/-- lib.rs:312-347 `signed_submit_checkpoint_with_identity`. -/
def signedSubmit (cr : Crypto) (env : TokenManager.Env) (sender : Acct) (proof : Proof) (handler : Acct) (hash : Hash)
    (origin : U64) (s : State) : Res :=
  if sender ≠ handler then .error .senderNotValid
  else
    match s.handlers handler with
    | none => .error .chainNotRegistered
    | some chain =>
      if signatureIsValid cr (view s) (.submitCheckpoint proof handler hash origin) then
        doSubmit env handler hash chain origin (some (.submitCheckpoint proof handler hash origin, s.nonces chain)) s
      else .error .unauthorizedSigned

/-- lib.rs:351-363 `set_checkpoint_fee`. -/
def setFee (root : Bool) (chain : U32) (fee : Nat) (s : State) : Res :=
  if root then .ok { s with fee := upd s.fee chain fee, log := s.log ++ [.feeSet chain fee] } else .error .badOrigin

/-- The extrinsics, and changes to balances made elsewhere. `sender` is the signed origin. -/
inductive Step where
  | register (sender : Acct) (name : List UInt8)
  | update (sender new : Acct)
  | submit (env : TokenManager.Env) (sender : Acct) (hash : Hash) (origin : U64)
  | signedRegister (cr : Crypto) (sender : Acct) (proof : Proof) (handler : Acct) (name : SVec UInt8)
  | signedUpdate (cr : Crypto) (sender : Acct) (proof : Proof) (old new : Acct)
  | signedSubmit (cr : Crypto) (env : TokenManager.Env) (sender : Acct) (proof : Proof) (handler : Acct) (hash : Hash) (origin : U64)
  | setFee (root : Bool) (chain : U32) (fee : Nat)
  | elsewhere (f : TokenManager.State → TokenManager.State)

/-- One extrinsic's result. -/
def exec (s : State) : Step → Res
  | .register a n => doRegister a n none s
  | .update a b => updateHandler a b s
  | .submit env a h o => submitCheckpoint env a h o s
  | .signedRegister cr a p h n => Anchor.signedRegister cr a p h n s
  | .signedUpdate cr a p o n => Anchor.signedUpdate cr a p o n s
  | .signedSubmit cr env a p h k o => Anchor.signedSubmit cr env a p h k o s
  | .setFee r c f => Anchor.setFee r c f s
  | .elsewhere f => .ok { s with tm := f s.tm }

/-- One step: an error leaves the state as it was. -/
def step (s : State) (x : Step) : State :=
  match exec s x with
  | .ok s' => s'
  | .error _ => s

/-- Genesis: empty storage; `DefaultCheckpointFee` and balances are arbitrary. -/
def init (defaultFee : Nat) (tm : TokenManager.State) : State :=
  { fee := fun _ => defaultFee, nonces := fun _ => 0, handlers := fun _ => none, chainData := fun _ => none, nextChain := 0,
    checkpoints := fun _ _ => none, originTo := fun _ _ => none, nextCheckpoint := fun _ => 0, tm := tm, log := [] }

/-- A history. -/
def run (fee : Nat) (tm : TokenManager.State) (steps : List Step) : State := steps.foldl step (init fee tm)

end Verif.Anchor
