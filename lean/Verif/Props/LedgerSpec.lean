import Verif.Model.Ledger

/-!
# What C118–C120 are stated with

Who pays in a step, and what a step creates and destroys, read off the step and off whether it was accepted.
-/

namespace Verif.TokenManager

/-- Native tokens created by an accepted lift or revert. -/
def createdBy (native : Addr) (ok : Bool) : Step → Nat
  | .event (.lifted t _ a) => if ok = true ∧ t = native then a else 0
  | .event (.lowerReverted t _ a _) => if ok = true ∧ t = native then a else 0
  | .interfaceLift t _ a => if ok = true ∧ t = native then a else 0
  | _ => 0

/-- Native tokens destroyed by an executed lower. -/
def destroyedBy (s : State) (ok : Bool) : Step → Nat
  | .rootExecuteLower c _ => if ok = true ∧ c.token = s.avtContract then c.amount else 0
  | .dispatchScheduled i =>
    match s.scheduled i with
    | some c => if ok = true ∧ c.token = s.avtContract then c.amount else 0
    | none => 0
  | _ => 0

/-- The account a step may take native tokens from. -/
def payerOf (treasury : Acct) (s : State) : Step → Option Acct
  | .proxy _ (.transfer _ f _ _ _) => some f
  | .signedTransfer _ _ f _ _ _ => some f
  | .payFee _ _ f _ => some f
  | .payTreasury _ f => some f
  | .rootTreasury _ _ => some treasury
  | .rootExecuteLower c _ => some c.sender
  | .dispatchScheduled i => (s.scheduled i).map (fun c => c.sender)
  | _ => none

end Verif.TokenManager

namespace Verif.Ledger

/-- The account a step may take native tokens from. -/
def payer (C : Cfg) (S : Sys) : Step → Option Nat
  | .token _ st => (TokenManager.payerOf C.treasury S.tm st).map C.N.num
  | .stake (.block _ _ _ _) => some C.E.pot
  | .transfer f _ _ => some f
  | .takeFee w _ => some w
  | _ => none

/-- Whether the token manager accepts the step. -/
def accepted (C : Cfg) (S : Sys) (env : TokenManager.Env) (st : TokenManager.Step) : Bool :=
  (TokenManager.step (envOf C S.F env) (load C S) st).2.isNone

/-- Native tokens a step creates: accepted lifts and reverts of the native token. -/
def created (C : Cfg) (S : Sys) : Step → Nat
  | .token env st => TokenManager.createdBy S.tm.avtContract (accepted C S env st) st
  | _ => 0

/-- Native tokens a step destroys: executed lowers of the native token. -/
def destroyed (C : Cfg) (S : Sys) : Step → Nat
  | .token env st => TokenManager.destroyedBy S.tm (accepted C S env st) st
  | _ => 0

end Verif.Ledger
