import Verif.Model.Ledger
import Verif.Lemmas.Encoding

/-!
# Messages from the relay chain and from sibling parachains

The runtime's XCM configuration (`runtime/avn/src/configs/xcm_config.rs`) on the ledger of `Model/Ledger.lean`. The configuration is modelled as
written; what the XCM executor does with it is library code (xcm-executor, xcm-builder, pallet-xcm), given here as their documentation has it: an
executor with an origin register and a holding register that runs a list of instructions, each in its own storage transaction
(`FrameTransactionalProcessor`, xcm_config.rs:142). A failed instruction changes nothing; what runs after it (nothing, an error handler, an appendix) is
again a list of instructions, so the executions of all programs are the lists of instructions that succeeded. Only the native part of the holding is kept,
since `LocalAssetTransactor` handles no other asset. Left out: weights and the barrier (they only refuse more), version negotiation, responses, and locking
(`AssetLocker = ()`).
-/

namespace Verif.Xcm

open Verif.Ledger

/-- The junctions this configuration distinguishes; `other` stands for all the rest. -/
inductive Junction where
  | parachain (id : Nat)
  | accountId32 (network : Option Nat) (id : Acct)
  | other (k : Nat)
  deriving DecidableEq

/-- `Location`: steps up, then junctions down. -/
structure Location where
  parents : Nat
  interior : List Junction
  deriving DecidableEq

/-- xcm_config.rs:27: the relay chain as seen from here. -/
def relayLocation : Location := ⟨1, []⟩

/-- A sibling parachain as seen from here. -/
def sibling (id : Nat) : Location := ⟨1, [.parachain id]⟩

/-- A fungible or non-fungible asset. -/
inductive Fungibility where
  | fungible (amount : Nat)
  | nonFungible (instance_ : Nat)
  deriving DecidableEq

/-- `Asset`. -/
structure Asset where
  id : Location
  fun_ : Fungibility
  deriving DecidableEq

/-- Bytes followed by zeros, cut to 32 (`TrailingZeroInput` / `into_account_truncating`). -/
def padded (b : List UInt8) : Acct := ⟨((b ++ List.replicate 32 0).take 32).toArray, by simp⟩

/-- `ParentIsPreset`: "Parent" and zeros. -/
def parentAccount : Acct := padded [80, 97, 114, 101, 110, 116]

/-- `SiblingParachainConvertsVia<Sibling>`: "sibl" and the id as a little-endian u32. -/
def siblingAccount (id : Nat) : Acct := padded ([115, 105, 98, 108] ++ leBytes 4 id)

/-- `PalletId::into_account_truncating`: "modl" and the eight bytes. -/
def palletAccount (id : List UInt8) : Acct := padded ([109, 111, 100, 108] ++ id)

/-- `RewardPotId` (`runtime/avn/src/configs/mod.rs:276-279`): "av/vamgr". -/
def potAccount : Acct := palletAccount [97, 118, 47, 118, 97, 109, 103, 114]

/-- `AvnTreasuryPotId` (`runtime/avn/src/configs/mod.rs:423`): "Treasury". -/
def treasuryAccount : Acct := palletAccount [84, 114, 101, 97, 115, 117, 114, 121]

/-- xcm_config.rs:38-45 `LocationToAccountId`; `RelayNetwork` is none (28), so an `AccountId32` must carry no network. Ids are u32. -/
def toAccount (l : Location) : Option Acct :=
  if l = relayLocation then some parentAccount
  else
    match l.parents, l.interior with
    | 1, [.parachain id] => if id < 2 ^ 32 then some (siblingAccount id) else none
    | 0, [.accountId32 none id] => some id
    | _, _ => none

/-- xcm_config.rs:48-59 `IsConcrete<RelayLocation>`: the relay chain's token is taken for the native currency `Balances`. -/
def nativeAmount (a : Asset) : Option Nat :=
  match a.fun_ with
  | .fungible n => if a.id = relayLocation then some n else none
  | .nonFungible _ => none

/-- xcm_config.rs:121 `IsReserve = NativeAsset`: a location is the reserve of its own asset. -/
def isReserve (a : Asset) (origin : Location) : Bool := a.id = origin

/-- xcm_config.rs:122 `IsTeleporter = ()`. -/
def isTeleporter (_ : Asset) (_ : Location) : Bool := false

/-- The kinds of origin a `Transact` may ask for. -/
inductive OriginKind where
  | native
  | sovereignAccount
  | superuser
  | xcm
  deriving DecidableEq

/-- Local origins. -/
inductive Origin where
  | root
  | signed (a : Acct)
  | relay
  | siblingPara (id : Nat)
  | xcm (l : Location)
  deriving DecidableEq

/-- xcm_config.rs:64-80 `XcmOriginToTransactDispatchOrigin`: the first converter that takes the pair. -/
def toOrigin (l : Location) (k : OriginKind) : Option Origin :=
  match k with
  | .sovereignAccount => (toAccount l).map .signed
  | .native =>
    if l = relayLocation then some .relay
    else
      match l.parents, l.interior with
      | 1, [.parachain id] => if id < 2 ^ 32 then some (.siblingPara id) else none
      | 0, [.accountId32 none id] => some (.signed id)
      | _, _ => none
  | .xcm => some (.xcm l)
  | .superuser => none

/-- Calls of the ledger that a signed origin may make. -/
def signer (N : Numbering) : Ledger.Step → Option Acct
  | .transfer f _ _ => N.inv f
  | .token _ (.proxy r _) => some r
  | .token _ (.signedTransfer o _ _ _ _ _) => some o
  | .token _ (.scheduleDirectLower o _ _ _ _) => some o
  | .token _ (.scheduleSignedLower o _ _ _ _ _) => some o
  | .token _ (.regenerateLowerProof o _) => some o
  | _ => none

/-- Calls of the ledger that need root. -/
def needsRoot : Ledger.Step → Bool
  | .token _ (.rootTreasury _ _) => true
  | .token _ (.rootExecuteLower _ _) => true
  | .token _ (.rootSetPeriod _) => true
  | .token _ (.rootToggleLowering _) => true
  | .token _ (.rootSetNative _) => true
  | .token _ (.rootCancelScheduled _) => true
  | _ => false

/-- Whether an origin may make a call of the ledger. The relay, sibling and xcm origins are accepted by none of them. -/
def mayCall (N : Numbering) (o : Origin) (st : Ledger.Step) : Bool :=
  match o with
  | .root => needsRoot st
  | .signed a => signer N st == some a
  | _ => false

/-- Instructions, by what they do to the registers and to native balances. `sendAway` stands for `InitiateReserveWithdraw`, `InitiateTeleport`, `BurnAsset` and
`ExchangeAsset`, which take assets out of the holding; `depositReserve` is `depositAsset` to a sovereign account; `SetFeesMode` withdrawals are `withdraw`. -/
inductive Instr where
  | withdraw (a : Asset)
  | reserveDeposited (a : Asset)
  | teleported (a : Asset)
  | claim (a : Asset)
  | clearOrigin
  | descendOrigin (js : List Junction)
  | aliasOrigin (l : Location)
  | universalOrigin (j : Junction)
  | deposit (a : Asset) (beneficiary : Location)
  | transfer (a : Asset) (beneficiary : Location)
  | buyExecution (fee : Nat) (author : Option Acct)
  | sendAway (a : Asset)
  | transact (k : OriginKind) (st : Ledger.Step)

/-- The state: the ledger, and what is trapped under a location (`AssetTrap = PolkadotXcm`, xcm_config.rs:129-130). -/
structure XSys where
  S : Sys
  trapped : List (Location × Nat)

/-- The executor's registers. -/
structure Exec where
  X : XSys
  origin : Option Location
  holding : Nat

/-- A native balance set. -/
def setFree (S : Sys) (n v : Nat) : Sys := { S with F := { S.F with led := { S.F.led with free := upd S.F.led.free n v } } }

/-- `FungibleAdapter::withdraw_asset`: burns from the account, frozen tokens stay. -/
def takeFrom (C : Cfg) (S : Sys) (l : Location) (amount : Nat) : Option Sys :=
  match toAccount l with
  | none => none
  | some w =>
    if S.F.led.free (C.N.num w) < amount + frozen S.F (C.N.num w) then none
    else some (setFree S (C.N.num w) (S.F.led.free (C.N.num w) - amount))

/-- `FungibleAdapter::deposit_asset`: mints into the account. -/
def giveTo (C : Cfg) (S : Sys) (l : Location) (amount : Nat) : Option Sys :=
  match toAccount l with
  | none => none
  | some w =>
    if S.F.led.free (C.N.num w) + amount ≥ pow128 then none
    else some (setFree S (C.N.num w) (S.F.led.free (C.N.num w) + amount))

/-- One instruction; `none` when it fails. xcm_config.rs:115-147 for the parts of the configuration. -/
def exec (C : Cfg) (e : Exec) : Instr → Option Exec
  | .withdraw a =>
    match e.origin, nativeAmount a with
    | some l, some n => (takeFrom C e.X.S l n).map fun S => { e with X := { e.X with S := S }, holding := e.holding + n }
    | _, _ => none
  | .reserveDeposited a =>
    match e.origin with
    | some l => if isReserve a l then some { e with holding := e.holding + (nativeAmount a).getD 0 } else none
    | none => none
  | .teleported a =>
    match e.origin with
    | some l => if isTeleporter a l then some { e with holding := e.holding + (nativeAmount a).getD 0 } else none
    | none => none
  | .claim a =>
    match e.origin, nativeAmount a with
    | some l, some n =>
      if (l, n) ∈ e.X.trapped then some { e with X := { e.X with trapped := e.X.trapped.erase (l, n) }, holding := e.holding + n } else none
    | _, _ => none
  | .clearOrigin => some { e with origin := none }
  | .descendOrigin js =>
    match e.origin with
    | some l => some { e with origin := some ⟨l.parents, l.interior ++ js⟩ }
    | none => none
  -- `Aliasers = Nothing` (141), `UniversalAliases = Nothing` (138)
  | .aliasOrigin _ => none
  | .universalOrigin _ => none
  | .deposit a b =>
    match nativeAmount a with
    | some n => if n ≤ e.holding then (giveTo C e.X.S b n).map fun S => { e with X := { e.X with S := S }, holding := e.holding - n } else none
    | none => none
  | .transfer a b =>
    match e.origin, nativeAmount a with
    | some l, some n =>
      match takeFrom C e.X.S l n with
      | none => none
      | some S1 => (giveTo C S1 b n).map fun S => { e with X := { e.X with S := S } }
    | _, _ => none
  -- `UsingComponents<.., ToAuthor>` (126-127): the fee goes to the author of the block, or is dropped if there is none
  | .buyExecution fee author =>
    if fee ≤ e.holding then
      match author with
      | none => some { e with holding := e.holding - fee }
      | some w =>
        if e.X.S.F.led.free (C.N.num w) + fee ≥ pow128 then none
        else some { e with X := { e.X with S := setFree e.X.S (C.N.num w) (e.X.S.F.led.free (C.N.num w) + fee) }, holding := e.holding - fee }
    else none
  | .sendAway a =>
    match nativeAmount a with
    | some n => if n ≤ e.holding then some { e with holding := e.holding - n } else none
    | none => none
  -- `SafeCallFilter = Everything` (140)
  | .transact k st =>
    match e.origin with
    | some l =>
      match toOrigin l k with
      | some o => if mayCall C.N o st then some { e with X := { e.X with S := Ledger.step C e.X.S st } } else none
      | none => none
    | none => none

/-- The instructions of a message one after the other; the ones that fail change nothing. -/
def execAll (C : Cfg) (e : Exec) (prog : List Instr) : Exec := prog.foldl (fun e i => (exec C e i).getD e) e

/-- What is left in the holding at the end is trapped under the last origin, or the sender. -/
def settle (sender : Location) (e : Exec) : XSys :=
  if e.holding = 0 then e.X else { e.X with trapped := e.X.trapped ++ [(e.origin.getD sender, e.holding)] }

/-- Senders of messages: the relay chain and sibling parachains (`MessageProcessor`, `runtime/avn/src/configs/mod.rs:207-219`: messages come with the
origins `Parent` and `Sibling(id)`). Local accounts execute no messages: `XcmExecuteFilter = Nothing` (xcm_config.rs:166). -/
inductive Sender where
  | relay
  | sibling (id : Nat) (h : id < 2 ^ 32)

/-- The sender's location. -/
def Sender.loc : Sender → Location
  | .relay => relayLocation
  | .sibling id _ => Xcm.sibling id

/-- A message. -/
def message (C : Cfg) (X : XSys) (sender : Sender) (prog : List Instr) : XSys :=
  settle sender.loc (execAll C ⟨X, some sender.loc, 0⟩ prog)

/-- Everything: steps of the ledger and messages. -/
inductive Step where
  | ledger (st : Ledger.Step)
  | message (sender : Sender) (prog : List Instr)

/-- One step. -/
def step (C : Cfg) (X : XSys) : Step → XSys
  | .ledger st => { X with S := Ledger.step C X.S st }
  | .message s p => message C X s p

end Verif.Xcm
