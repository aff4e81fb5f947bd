import Verif.Model.Basic
import Verif.Model.Common

/-!
# Transaction fees
pallets/avn-transaction-payment/src/{lib,fee_adjustment_config}.rs; wired in runtime/avn/src/configs/mod.rs:169-172, 493, 616-636
-/

namespace Verif.Fees

/-- fee_adjustment_config.rs:9-13 `FeeType` (with `FixedFeeConfig` 156-158, `PercentageFeeConfig` 181-185). -/
inductive FeeType where
  | fixed (fee : Nat)
  | percentage (p : Nat)
  | none
deriving DecidableEq

/-- fee_adjustment_config.rs:17-21 `AdjustmentType`. -/
inductive AdjustmentType where
  | timeBased (duration : Nat)
  | transactionBased (count : Nat)
  | none
deriving DecidableEq

/-- fee_adjustment_config.rs:25-31 `FeeAdjustmentConfig` (with `TimeBasedConfig` 214-217, `TransactionBasedConfig` 250-254). -/
inductive Config where
  | fixed (fee : Nat)
  | percentage (p : Nat)
  | timeBased (feeType : FeeType) (endBlock : Nat)
  | transactionBased (feeType : FeeType) (account : Acct) (endCount : Nat)
  | none
deriving DecidableEq

/-- Free plus reserved native balances (`total_balance`) and free balances. -/
structure Balances where
  free : Acct → Nat
  reserved : Acct → Nat

/-- One signed transaction, as charged (nothing is withdrawn when the fee is zero). `adjusted` says whether `AdjustedTransactionFeePaid` was emitted, which
then carries `withdrawn - refundDue`. -/
structure Charge where
  who : Acct
  block : Nat
  withdrawn : Nat
  corrected : Nat
  tip : Nat
  refund : Nat
  kept : Nat
  adjusted : Bool
deriving DecidableEq

/-- `KnownSenders` (lib.rs:98-102), account nonces and block number of `frame_system`, balances; and the observable log. -/
structure State where
  known : Acct → Option Config
  nonce : Acct → Nat
  block : Nat
  bal : Balances
  log : List Charge

/-- `u32::saturating_add` (block numbers and nonces are `u32`: runtime/avn/src/lib.rs). -/
def satAdd32 (a b : Nat) : Nat := if a + b < pow32 then a + b else pow32 - 1

/-- fee_adjustment_config.rs:109-118 `is_valid` of the config, with those of `FixedFeeConfig` 161-163, `PercentageFeeConfig`
188-190, `TimeBasedConfig` 220-222, `TransactionBasedConfig` 257-259. -/
def isValid : Config → Bool
  | .fixed f => f != 0
  | .percentage p => p != 0 && p ≤ 100
  | .timeBased t e => e != 0 && t != .none
  | .transactionBased t _ e => e != 0 && t != .none
  | .none => false

/-- fee_adjustment_config.rs:120-128 `is_active`, with 224-226 and 261-263. -/
def isActive (s : State) : Config → Bool
  | .fixed _ => true
  | .percentage _ => true
  | .timeBased _ e => s.block < e
  | .transactionBased _ a e => s.nonce a ≤ e
  | .none => false

/-- fee_adjustment_config.rs:294-306 `calculate_fee`. -/
def calculateFee (original : Nat) : FeeType → Option Nat
  | .fixed f => some f
  | .percentage p => some (original - perbillMul (perbillFromPercent p) original)
  | .none => none

/-- fee_adjustment_config.rs:130-138 `get_fee`, with 169-176, 196-209, 228-235, 265-272; `none` is `Err(InvalidFeeType)`. -/
def getFee (s : State) (c : Config) (original : Nat) : Option Nat :=
  match c with
  | .fixed f => some f
  | .percentage p => if p = 100 then some 0 else some (original - perbillMul (perbillFromPercent p) original)
  | .timeBased t _ => if isActive s c then calculateFee original t else some original
  | .transactionBased t _ _ => if isActive s c then calculateFee original t else some original
  | .none => some original

/-- lib.rs:186-215 `calculate_refund_amount`: whether an adjustment is active, and the refund due. The map has a default, so
an unknown sender reads `FeeAdjustmentConfig::None`. -/
def refundAmount (s : State) (payer : Acct) (paid corrected tip : Nat) : Bool × Nat :=
  let c := (s.known payer).getD .none
  let active := isActive s c
  let toPay :=
    if active then
      match getFee s c (corrected - tip) with
      | some fee => satAdd128 fee tip
      | none => corrected
    else corrected
  (active, paid - toPay)

/-- lib.rs:111-134: the configuration stored by `set_known_sender`; `TimeBasedConfig::new` (fee_adjustment_config.rs:237-245) and
`TransactionBasedConfig::new` (274-277). -/
def mkConfig (s : State) (a : Acct) (t : FeeType) : AdjustmentType → Config
  | .timeBased d => .timeBased t (if d = 0 then 0 else satAdd32 s.block d)
  | .transactionBased n => .transactionBased t a (satAdd32 (s.nonce a) n)
  | .none =>
    match t with
    | .fixed f => .fixed f
    | .percentage p => .percentage p
    | .none => .none

/-- The two administrative calls. -/
inductive Admin where
  | set (sender : Acct) (feeType : FeeType) (adjustment : AdjustmentType)
  | remove (sender : Acct)
deriving DecidableEq

/-- lib.rs:106-154 `set_known_sender` and 158-173 `remove_known_sender`, called by root; an error changes nothing. -/
def admin (s : State) : Admin → State
  | .set a t j =>
    let c := mkConfig s a t j
    if isValid c then { s with known := upd s.known a (some c) } else s
  | .remove a => if (s.known a).isSome then { s with known := upd s.known a none } else s

/-- lib.rs:239-261 `withdraw_fee`: exact, from the free balance. What keeps part of it unusable (locks, freezes) is left to `lockedOk`;
the existential deposit is zero (runtime/avn/src/lib.rs:162). `none`: the transaction is invalid and leaves no trace. -/
def withdrawFee (lockedOk : Bool) (b : Balances) (who : Acct) (fee : Nat) : Option Balances :=
  if lockedOk ∧ fee ≤ b.free who then some { b with free := upd b.free who (b.free who - fee) } else none

/-- lib.rs:268-314 `correct_and_deposit_fee` for a transaction that paid; the fee and the tip are merged and put into the
staking pot (runtime/avn/src/configs/mod.rs:624-635). A refund is made only if the payer still has a balance (lib.rs:287-288); the deposit
cannot overflow because it returns part of what was withdrawn. -/
def correctAndDeposit (pot : Acct) (s : State) (who : Acct) (paid corrected tip : Nat) : State :=
  let r := refundAmount s who paid corrected tip
  let refund := if 0 < r.2 ∧ 0 < s.bal.free who + s.bal.reserved who then r.2 else 0
  let free1 := upd s.bal.free who (s.bal.free who + refund)
  let free2 := upd free1 pot (free1 pot + (paid - refund))
  { s with
    bal := { s.bal with free := free2 }
    log := s.log ++ [⟨who, s.block, paid, corrected, tip, refund, paid - refund, r.1⟩] }

/-- What happens: an administrative call by root (from governance), the next block, or a signed transaction of `who` with predicted
fee `fee`, corrected fee, and tip, whose dispatch changes balances by `dispatch` and may carry an administrative call. -/
inductive Step where
  | admin (a : Admin)
  | block
  | tx (who : Acct) (lockedOk : Bool) (fee corrected tip : Nat) (dispatch : Balances → Balances) (inner : Option Admin)

/-- One step. For a transaction: `CheckNonce` increments the nonce before dispatch, then the fee is withdrawn, the call dispatched,
the fee corrected (order of `SignedExtra`, runtime/avn/src/lib.rs; `frame_system::CheckNonce`). A zero fee withdraws nothing and is
not corrected (lib.rs:246-248, 276). -/
def step (pot : Acct) (s : State) : Step → State
  | .admin a => admin s a
  | .block => { s with block := s.block + 1 }
  | .tx who lockedOk fee corrected tip dispatch inner =>
    if fee = 0 then
      let s1 := { s with nonce := upd s.nonce who (s.nonce who + 1), bal := dispatch s.bal }
      let s2 := (inner.map (admin s1)).getD s1
      { s2 with log := s2.log ++ [⟨who, s.block, 0, corrected, tip, 0, 0, false⟩] }
    else
      match withdrawFee lockedOk s.bal who fee with
      | none => s
      | some b =>
        let s1 := { s with nonce := upd s.nonce who (s.nonce who + 1), bal := dispatch b }
        let s2 := (inner.map (admin s1)).getD s1
        correctAndDeposit pot s2 who fee corrected tip

/-- Genesis: no known senders; nonces, balances and the block number are arbitrary. -/
def init (nonce : Acct → Nat) (block : Nat) (bal : Balances) : State :=
  { known := fun _ => none, nonce := nonce, block := block, bal := bal, log := [] }

/-- A history from a state. -/
def runFrom (pot : Acct) (s : State) (steps : List Step) : State := steps.foldl (step pot) s

end Verif.Fees
