import Verif.Model.TokenManager
import Verif.Model.StakingEra

/-!
# One ledger of native tokens under several pallets

The token manager, the staking pallet, the balances pallet and the fee handler all change the same native balances. This module puts the
models of `Model/TokenManager.lean` and `Model/StakingEra.lean` on one balance map, with the wiring of the runtime
(`runtime/avn/src/configs/mod.rs:169-172, 423-424, 455-457, 616-636`; `runtime/avn/src/lib.rs:232-330`): the locks the token manager meets are the staking
locks, a lifted growth is paid out by the staking pallet, fees end in the staking pot. Left out: reserves, holds and deposits (they move an
account's own funds between free and reserved), vesting, and locks of other pallets (they only forbid more).
-/

namespace Verif.Ledger

open Verif.Staking

/-- The staking model numbers accounts, the token manager uses the 32 bytes; `inv` is undefined on numbers that are no account. -/
structure Numbering where
  num : Acct → Nat
  inv : Nat → Option Acct
  left : ∀ a, inv (num a) = some a
  right : ∀ n a, inv n = some a → num a = n

/-- Parameters: those of staking, the numbering, and the treasury account (`runtime/avn/src/configs/mod.rs:423,457`), which both pallets use. -/
structure Cfg where
  E : EPar
  N : Numbering
  treasury : Acct
  same : N.num treasury = E.treasury

/-- The state. The native balances are `F.led.free`; `tm.avt` is not used. `held`: fees withdrawn from a payer whose transaction is being
dispatched (the `LiquidityInfo` of the transaction payment pallet). -/
structure Sys where
  tm : TokenManager.State
  F : Full
  held : Nat

/-- The frozen part of a balance: the larger of the two staking locks (`COLLATOR_LOCK_ID`, `NOMINATOR_LOCK_ID`:
`pallets/parachain-staking/src/lib.rs:147-148`; pallet-balances takes the maximum over lock identifiers). -/
def frozen (F : Full) (n : Nat) : Nat := max (F.led.clock n) (F.led.nlock n)

/-- The token manager's view of the native balances. -/
def avtOf (N : Numbering) (F : Full) (a : Acct) : Nat := F.led.free (N.num a)

/-- The balances with those of accounts replaced. -/
def storeFree (N : Numbering) (F : Full) (avt : Acct → Nat) (n : Nat) : Nat :=
  match N.inv n with
  | some a => avt a
  | none => F.led.free n

/-- Writing native balances back. -/
def store (N : Numbering) (F : Full) (avt : Acct → Nat) : Full := { F with led := { F.led with free := storeFree N F avt } }

/-- What the token manager meets: the staking locks, the treasury, and `OnGrowthLiftedHandler = ParachainStaking`
(`runtime/avn/src/configs/mod.rs:455`; `pallets/parachain-staking/src/lib.rs:2490-2492`). -/
def envOf (C : Cfg) (F : Full) (env : TokenManager.Env) : TokenManager.Env :=
  { env with
    frozen := fun a => frozen F (C.N.num a)
    treasury := C.treasury
    growthHandler := fun amount period avt =>
      (avtOf C.N (payoutGrowth C.E (store C.N F avt) amount period).1, (payoutGrowth C.E (store C.N F avt) amount period).2) }

/-- The token manager's state with the shared balances. -/
def load (C : Cfg) (S : Sys) : TokenManager.State := { S.tm with avt := avtOf C.N S.F }

/-- The staking storage after a growth lift: its own part is changed by the payout, which runs if the treasury was credited
(`pallets/token-manager/src/lib.rs:971-1000`). -/
def growthF (C : Cfg) (S : Sys) (env : TokenManager.Env) (amount period : Nat) : Full :=
  if env.eventKnown = false ∨ amount = 0 then S.F
  else
    match TokenManager.creditAvt (load C S) C.treasury (perbillMul env.growthPct amount) with
    | (_, some _) => S.F
    | (s1, none) =>
      (payoutGrowth C.E (store C.N S.F s1.avt) (amount - perbillMul env.growthPct amount) period).1

/-- A step of the token manager. Native balance changes by others are the other steps, so `external` does nothing. -/
def tokenStep (C : Cfg) (S : Sys) (env : TokenManager.Env) (st : TokenManager.Step) : Sys :=
  match st with
  | .external _ => S
  | .event (.growthLifted amount period) =>
    { S with tm := (TokenManager.step (envOf C S.F env) (load C S) st).1, F := growthF C S env amount period }
  | st =>
    { S with tm := (TokenManager.step (envOf C S.F env) (load C S) st).1,
             F := store C.N S.F (TokenManager.step (envOf C S.F env) (load C S) st).1.avt }

/-- A step of the staking pallet. A growth is lifted through the token manager, and balances are changed by the other steps. -/
def stakeStep (C : Cfg) (S : Sys) (op : EOp) : Sys :=
  match op with
  | .growthLifted _ _ => S
  | .ledger (.setFree _ _) => S
  | op => { S with F := eStep C.E S.F op }

/-- `transfer_allow_death` / `transfer_keep_alive` of pallet-balances with existential deposit 0 (`runtime/avn/src/lib.rs:162`,
`runtime/avn/src/configs/mod.rs:148-167`). -/
def transferStep (S : Sys) (frm dst amount : Nat) : Sys :=
  if amount = 0 ∨ frm = dst then S
  else if S.F.led.free frm < amount + frozen S.F frm ∨ S.F.led.free dst + amount ≥ pow128 then S
  else
    let f1 := upd S.F.led.free frm (S.F.led.free frm - amount)
    { S with F := { S.F with led := { S.F.led with free := upd f1 dst (f1 dst + amount) } } }

/-- `withdraw_fee`: fees are taken from the part that is not frozen (`pallets/avn-transaction-payment/src/lib.rs:236-266`). -/
def takeFee (S : Sys) (who fee : Nat) : Sys :=
  if S.F.led.free who < fee + frozen S.F who then S
  else
    { S with F := { S.F with led := { S.F.led with free := upd S.F.led.free who (S.F.led.free who - fee) } }, held := S.held + fee }

/-- `correct_and_deposit_fee`: part of a withdrawn fee is given back, the rest goes to the staking pot
(`pallets/avn-transaction-payment/src/lib.rs:268-314`, `runtime/avn/src/configs/mod.rs:616-636`). How much is given back is the subject of
`Model/Fees.lean`; here it is any part. -/
def settleFee (C : Cfg) (S : Sys) (who paid refund : Nat) : Sys :=
  if S.held < paid ∨ paid < refund then S
  else
    let f1 := upd S.F.led.free who (S.F.led.free who + refund)
    { S with F := { S.F with led := { S.F.led with free := upd f1 C.E.pot (f1 C.E.pot + (paid - refund)) } }, held := S.held - paid }

/-- Everything that changes native balances. -/
inductive Step where
  | token (env : TokenManager.Env) (st : TokenManager.Step)
  | stake (op : EOp)
  | transfer (frm dst amount : Nat)
  | takeFee (who fee : Nat)
  | settleFee (who paid refund : Nat)

/-- One step. -/
def step (C : Cfg) (S : Sys) : Step → Sys
  | .token env st => tokenStep C S env st
  | .stake op => stakeStep C S op
  | .transfer f d a => transferStep S f d a
  | .takeFee w fee => takeFee S w fee
  | .settleFee w p r => settleFee C S w p r

/-- A history. -/
def run (C : Cfg) (S : Sys) (h : List Step) : Sys := h.foldl (step C) S

end Verif.Ledger
