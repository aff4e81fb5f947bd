import Verif.Model.Encoding

/-!
# Offence handler
pallets/avn-offence-handler/src/lib.rs
-/

namespace Verif.Offence

/-- What the outside world sees, in order: the two pallet events (lib.rs:76-81), each call of
`T::Enforcer::slash_validator`, and the registration notifications. -/
inductive Obs where
  /-- `Event::ReportedOffence` (lib.rs:78). -/
  | reported (v : Acct)
  /-- A call of `slash_validator` (lib.rs:146) and whether it returned `Ok`. -/
  | slashed (v : Acct) (ok : Bool)
  /-- `Event::SlashingConfigurationUpdated` (lib.rs:80). -/
  | configured (enabled : Bool)
  /-- `on_validator_registration` (lib.rs:160-163). -/
  | registered (v : Acct)
deriving DecidableEq

/-- Storage (lib.rs:87-95). `ReportedOffenders` is a map whose key presence matters, hence an option. -/
structure State where
  reported : Acct → Option Bool
  slashing : Bool
  log : List Obs

/-- Genesis: both storage items have their defaults. -/
def init : State := { reported := fun _ => none, slashing := false, log := [] }

/-- lib.rs:133-153: one offender that passed the `contains_key` filter. `slashOk` is the answer of the enforcer
(runtime: pallet_parachain_staking or validators-manager); it is arbitrary. -/
def punish (slashOk : Bool) (v : Acct) (s : State) : State :=
  if s.slashing then
    { s with reported := upd s.reported v (some slashOk), log := s.log ++ [.reported v, .slashed v slashOk] }
  else
    { s with reported := upd s.reported v (some false), log := s.log ++ [.reported v] }

/-- lib.rs:130-133: the filter is evaluated lazily, just before each offender is handled. -/
def handleOne (s : State) (o : Acct × Bool) : State :=
  if (s.reported o.1).isSome then s else punish o.2 o.1 s

/-- lib.rs:115-157 `on_offence`: the offenders, each with the answer the enforcer would give. Weights are not modelled. -/
def onOffence (os : List (Acct × Bool)) (s : State) : State := os.foldl handleOne s

/-- lib.rs:101-110 `configure_slashing`; `root` tells whether the origin is root. -/
def configureSlashing (root enabled : Bool) (s : State) : State :=
  if root then { s with slashing := enabled, log := s.log ++ [.configured enabled] } else s

/-- lib.rs:163-166 `on_validator_registration`, lib.rs:116-119 `setup_for_new_validator`. -/
def onRegistration (v : Acct) (s : State) : State :=
  { s with reported := upd s.reported v none, log := s.log ++ [.registered v] }

/-- The entry points. -/
inductive Step where
  | offence (os : List (Acct × Bool))
  | configure (root enabled : Bool)
  | register (v : Acct)

/-- One entry point. -/
def step (s : State) : Step → State
  | .offence os => onOffence os s
  | .configure r e => configureSlashing r e s
  | .register v => onRegistration v s

/-- A history. -/
def run (steps : List Step) : State := steps.foldl step init

end Verif.Offence
