import Verif.Model.Staking

/-!
# Model of eras, collator selection, era payouts and growth

`pallets/parachain-staking/src/lib.rs`: block hooks, `start_new_era`, `select_top_candidates`, the delayed payout of staking rewards,
and the growth periods that are reported to Ethereum and paid out when the growth is lifted. `Full` is the ledger of
`Model/Staking.lean` together with the storage of these.

Simplifications: `u32` and `u128` values are natural numbers (block numbers, points, eras and balances stay far below the bounds);
account balances are `led.free`; the result of `BridgeInterface::publish` is chosen by the environment; the order in which storage
maps are iterated is arbitrary (which collator is paid next is chosen by the environment; scores are listed in some order);
events are not modelled, except that payments and publications are recorded in ghost logs.
-/

namespace Verif.Staking

/-- `Perbill::from_rational(p, q)` for arbitrary `p`, `q`: numbers are first divided by `ceil(q / 10^9)`; `q = 0` or `p > q` give
one (`sp_arithmetic::per_things`, called at `pallets/parachain-staking/src/lib.rs:1922,1930,1936,2231,2244`). -/
def ratio (p q : Nat) : Nat :=
  if q = 0 ∨ q < p then billion
  else
    let f := max ((q + (billion - 1)) / billion) 1
    p / f * billion / (q / f)

/-- `CollatorSnapshot`. Models `pallets/parachain-staking/src/types.rs:112-126`. -/
structure Snap where
  bond : Nat
  noms : List Bond
  total : Nat
deriving DecidableEq, Repr

/-- Its default. Models `pallets/parachain-staking/src/types.rs:145-153`. -/
def Snap.zero : Snap := ⟨0, [], 0⟩

/-- `GrowthInfo`. Models `pallets/parachain-staking/src/types.rs:1363-1373`. -/
structure GrowthRec where
  accs : Nat
  stake : Nat
  reward : Nat
  points : Nat
  scores : List (Nat × Nat)
  txId : Option Nat
  triggered : Option Bool
deriving DecidableEq, Repr

/-- Its default. Models `pallets/parachain-staking/src/types.rs:1401-1413`. -/
def GrowthRec.zero : GrowthRec := ⟨0, 0, 0, 0, [], none, none⟩

/-- Constants. Models `pallets/parachain-staking/src/lib.rs:76-82,150,166-240`; production values: payment delay 2, at least 20
blocks per era, at least 20 selected, 30 eras per growth period, 10 growths at once, growth disabled, existential deposit 0.
`pot` and `treasury` are accounts without a key. -/
structure EPar where
  par : Par
  payDelay : Nat
  minBlocks : Nat
  minSelected : Nat
  erasPerGrowth : Nat
  maxGrowths : Nat
  growthEnabled : Bool
  ed : Nat
  pot : Nat
  treasury : Nat

/-- Ghost: a staking reward that was paid (the event `Rewarded`, `pallets/parachain-staking/src/lib.rs:1902`). -/
structure Payment where
  era : Nat
  collator : Nat
  payee : Nat
  amount : Nat
deriving DecidableEq, Repr

/-- Ghost: a growth period accepted by the bridge for publication (`pallets/parachain-staking/src/lib.rs:2445`). -/
structure Sent where
  period : Nat
  reward : Nat
  average : Nat
  tx : Nat
deriving DecidableEq, Repr

/-- The storage. `first`, `length`: `Era` (its `current` is `led.era`); the maps keyed by era and account are association lists per
era. The last five are ghost logs: payments; the amount set aside per era (the event-less `DelayedPayouts` insert); the collators
paid, per era; publications; growth periods paid out with their amounts.
Models `pallets/parachain-staking/src/lib.rs:540-668`. -/
structure Full where
  led : St
  first : Nat
  length : Nat
  force : Bool
  totalSelected : Nat
  selected : List Nat
  atStake : Nat → List (Nat × Snap)
  staked : Nat → Nat
  points : Nat → Nat
  awarded : Nat → List (Nat × Nat)
  delayed : Nat → Option Nat
  locked : Nat
  gpStart : Nat
  gpIndex : Nat
  growth : Nat → Option GrowthRec
  processed : Nat → Bool
  lastTriggered : Nat
  published : Nat → Option Nat
  paid : List Payment
  aside : Nat → Nat
  served : List (Nat × Nat)
  sent : List Sent
  payouts : List (Nat × Nat)

/-! ### Association lists -/

/-- `get` on a map with a default. -/
def alGet {α : Type _} (l : List (Nat × α)) (k : Nat) (d : α) : α := ((l.find? (fun p => decide (p.1 = k))).map Prod.snd).getD d

/-- `contains_key`. -/
def alHas {α : Type _} (l : List (Nat × α)) (k : Nat) : Bool := l.any (fun p => decide (p.1 = k))

/-- `insert`. -/
def alPut {α : Type _} (l : List (Nat × α)) (k : Nat) (v : α) : List (Nat × α) :=
  if alHas l k then l.map (fun p => if p.1 = k then (k, v) else p) else l ++ [(k, v)]

/-- `remove`. -/
def alDel {α : Type _} (l : List (Nat × α)) (k : Nat) : List (Nat × α) := l.filter (fun p => decide (p.1 ≠ k))

/-! ### Selection -/

/-- The order of `sort_by(|a, b| a.amount.cmp(&b.amount))`. Models `pallets/parachain-staking/src/lib.rs:1957`. -/
def amountLe (a b : Bond) : Bool := decide (a.amount ≤ b.amount)

/-- The order of `sort()` on accounts. Models `pallets/parachain-staking/src/lib.rs:1967`. -/
def natLe (a b : Nat) : Bool := decide (a ≤ b)

/-- `compute_top_candidates`. Models `pallets/parachain-staking/src/lib.rs:1954-1969`. -/
def topCandidates (s : St) (n : Nat) : List Nat :=
  stableSort natLe ((((stableSort amountLe s.pool).reverse.take n).filter (fun x => decide (s.minCollator ≤ x.amount))).map Bond.owner)

/-- The request of a nominator in the map built by `get_rewardable_nominators` (later entries replace earlier ones).
Models `pallets/parachain-staking/src/lib.rs:2048-2051`. -/
def lastReq (l : List Req) (n : Nat) : Option Req := l.reverse.find? (Req.by n)

/-- The rewardable amount of a nomination and what is not counted. Models `pallets/parachain-staking/src/lib.rs:2057-2079`. -/
def rewardable (l : List Req) (b : Bond) : Bond × Nat :=
  match lastReq l b.owner with
  | none => (b, 0)
  | some q => if q.revoke then (⟨b.owner, 0⟩, b.amount) else (⟨b.owner, b.amount - q.amount⟩, q.amount)

/-- The snapshot of a collator (`truncate_from` at 300 is not reached: a top list has at most 300 entries).
Models `pallets/parachain-staking/src/lib.rs:2008-2024,2047-2085`. -/
def snapshot (s : St) (c : Nat) (r : CRec) : Snap :=
  ⟨r.info.bond, r.top.list.map (fun b => (rewardable (s.reqs c) b).1),
   r.info.totalCounted - (r.top.list.map (fun b => (rewardable (s.reqs c) b).2)).sum⟩

/-- One round of the loop over the chosen collators; a missing candidate panics.
Models `pallets/parachain-staking/src/lib.rs:2006-2030`. -/
def selectStep (s : St) (o : Option (List (Nat × Snap))) (c : Nat) : Option (List (Nat × Snap)) :=
  match o with
  | none => none
  | some l =>
    match s.cands c with
    | none => none
    | some r => some (alPut l c (snapshot s c r))

/-- `select_top_candidates`; `none` is a panic. Models `pallets/parachain-staking/src/lib.rs:1973-2036`. -/
def selectTop (E : EPar) (F : Full) (now : Nat) : Option Full :=
  let top := topCandidates F.led F.totalSelected
  if top = [] then
    if F.selected.all (fun c => alHas (F.atStake (now - 1)) c) then
      some { F with atStake := upd F.atStake now ((F.atStake (now - 1)).foldl (fun l p => alPut l p.1 p.2) (F.atStake now)) }
    else none
  else
    match top.foldl (selectStep F.led) (some (F.atStake now)) with
    | none => none
    | some l => if top.length ≤ E.par.cfg.maxPool then some { F with atStake := upd F.atStake now l, selected := top } else none

/-! ### Growth periods -/

/-- `is_new_growth_period`. Models `pallets/parachain-staking/src/lib.rs:2139-2146`. -/
def newPeriod (E : EPar) (F : Full) (era : Nat) : Bool := decide (F.gpIndex = 0 ∨ E.erasPerGrowth ≤ era - F.gpStart)

/-- One score added in `update_collator_scores` (the map is kept as an association list).
Models `pallets/parachain-staking/src/lib.rs:2176-2183`. -/
def addScore (l : List (Nat × Nat)) (p : Nat × Nat) : List (Nat × Nat) := alPut l p.1 (alGet l p.1 0 + p.2)

/-- `update_collator_scores` (truncation at 10000 collators is not reached).
Models `pallets/parachain-staking/src/lib.rs:2167-2191`. -/
def mergeScores (old new : List (Nat × Nat)) : List (Nat × Nat) := new.foldl addScore old

/-- `accumulate_payout_for_period`. Models `pallets/parachain-staking/src/lib.rs:2148-2165`. -/
def accumulate (F : Full) (index staked reward points : Nat) (scores : List (Nat × Nat)) : Full :=
  let g := (F.growth index).getD GrowthRec.zero
  { F with growth := upd F.growth index (some { g with
      accs := g.accs + 1, stake := g.stake + staked, reward := g.reward + reward, points := g.points + points,
      scores := mergeScores g.scores scores }) }

/-- Marking a growth period as published. Models `pallets/parachain-staking/src/lib.rs:2445-2453`. -/
def markSent (F : Full) (p : Nat) (g : GrowthRec) (tx : Nat) : Full :=
  { F with lastTriggered := p, published := upd F.published tx (some p), growth := upd F.growth p (some { g with txId := some tx }),
           sent := F.sent ++ [⟨p, g.reward, g.stake / g.accs, tx⟩] }

/-- One round of `trigger_outstanding_growths`; `pub p` is what publishing period `p` returns: a transaction id, or an error.
Models `pallets/parachain-staking/src/lib.rs:2387-2421,2424-2455`. -/
def triggerStep (pub : Nat → Option Nat) (F : Full) (p : Nat) : Full :=
  match F.growth p with
  | none => F
  | some g =>
    if F.processed p = true ∨ g.txId.isSome = true ∨ g.triggered.isSome = true then F
    else if g.accs = 0 ∨ g.stake = 0 ∨ g.reward = 0 then
      { F with lastTriggered := p, growth := upd F.growth p (some { g with txId := some 0 }) }
    else
      match pub p with
      | none => F
      | some tx => markSent F p g tx

/-- `get_untriggered_growths`. Models `pallets/parachain-staking/src/lib.rs:2457-2460`. -/
def untriggered (E : EPar) (F : Full) (latest : Nat) : List Nat :=
  (List.range' (F.lastTriggered + 1) (latest - F.lastTriggered)).take E.maxGrowths

/-- `trigger_outstanding_growths`. Models `pallets/parachain-staking/src/lib.rs:2384-2422`. -/
def triggerGrowths (E : EPar) (pub : Nat → Option Nat) (F : Full) (latest : Nat) : Full :=
  (untriggered E F latest).foldl (triggerStep pub) F

/-- `update_collator_payout`. Models `pallets/parachain-staking/src/lib.rs:2101-2137`. -/
def updatePayout (E : EPar) (pub : Nat → Option Nat) (F : Full) (era staked reward points : Nat) (scores : List (Nat × Nat)) : Full :=
  if newPeriod E F era then
    triggerGrowths E pub
      { F with gpStart := era, gpIndex := F.gpIndex + 1,
               growth := upd F.growth (F.gpIndex + 1) (some ⟨1, staked, reward, points, scores, none, none⟩) }
      (F.gpIndex + 1 - 1)
  else accumulate F F.gpIndex staked reward points scores

/-- `BridgeInterfaceNotification::process_result` for a transaction of this pallet.
Models `pallets/parachain-staking/src/lib.rs:2497-2507`. -/
def bridgeResult (F : Full) (tx : Nat) (ok : Bool) : Full :=
  match F.published tx with
  | none => F
  | some p => { F with growth := upd F.growth p (some { ((F.growth p).getD GrowthRec.zero) with triggered := some ok }) }

/-! ### Era payouts -/

/-- `reward_pot`. Models `pallets/parachain-staking/src/lib.rs:2095-2099`. -/
def potFunds (E : EPar) (F : Full) : Nat := F.led.free E.pot - E.ed

/-- `prepare_staking_payouts` with `compute_total_reward_to_pay`.
Models `pallets/parachain-staking/src/lib.rs:1805-1843,1756-1781`. -/
def preparePayouts (E : EPar) (pub : Nat → Option Nat) (F : Full) (now : Nat) : Full :=
  if now ≤ E.payDelay then F
  else if F.points (now - E.payDelay) = 0 then F
  else
    let e := now - E.payDelay
    let payout := potFunds E F - F.locked
    let F1 := { F with staked := upd F.staked e 0, locked := F.locked + payout, delayed := upd F.delayed e (some payout),
                       aside := upd F.aside e payout }
    if E.growthEnabled then updatePayout E pub F1 e (F.staked e) payout (F.points e) (F.awarded e) else F1

/-- The closure `pay_reward`: a transfer out of the pot that keeps it alive; an error is only logged. A transfer of zero, or to the
pot itself, succeeds without an effect. Models `pallets/parachain-staking/src/lib.rs:1893-1917`. -/
def payReward (E : EPar) (e c : Nat) (F : Full) (x : Nat × Nat) : Full :=
  if x.2 = 0 ∨ x.1 = E.pot then { F with locked := F.locked - x.2, paid := F.paid ++ [⟨e, c, x.1, x.2⟩] }
  else if F.led.free E.pot < x.2 + E.ed ∨ F.led.free x.1 + x.2 < E.ed then F
  else
    { F with
      led := { F.led with free := upd (upd F.led.free E.pot (F.led.free E.pot - x.2)) x.1 (F.led.free x.1 + x.2) }
      locked := F.locked - x.2, paid := F.paid ++ [⟨e, c, x.1, x.2⟩] }

/-- The payments for one collator: its own, and the nominators' unless zero.
Models `pallets/parachain-staking/src/lib.rs:1922-1943`. -/
def rewardsOf (c reward : Nat) (sn : Snap) : List (Nat × Nat) :=
  (c, perbillMul (ratio sn.bond sn.total) reward) ::
    (sn.noms.map (fun b => (b.owner, perbillMul (ratio b.amount sn.total) reward))).filter (fun x => decide (x.2 ≠ 0))

/-- `pay_one_collator_reward`: the new state and whether somebody was paid; `pick` chooses among the remaining collators.
Models `pallets/parachain-staking/src/lib.rs:1877-1950`. -/
def payOne (E : EPar) (F : Full) (e total pick : Nat) : Full × Bool :=
  if F.points e = 0 then (F, false)
  else
    match (F.awarded e)[pick % (F.awarded e).length]? with
    | none => (F, false)
    | some (c, pts) =>
      let reward := perbillMul (ratio pts (F.points e)) total
      let sn := alGet (F.atStake e) c Snap.zero
      let F1 := { F with awarded := upd F.awarded e (alDel (F.awarded e) c), atStake := upd F.atStake e (alDel (F.atStake e) c),
                         served := F.served ++ [(e, c)] }
      ((rewardsOf c reward sn).foldl (payReward E e c) F1, true)

/-- `handle_delayed_payouts`. Models `pallets/parachain-staking/src/lib.rs:1849-1871`. -/
def handlePayouts (E : EPar) (F : Full) (now pick : Nat) : Full :=
  if now < E.payDelay then F
  else
    match F.delayed (now - E.payDelay) with
    | none => F
    | some total =>
      match payOne E F (now - E.payDelay) total pick with
      | (F1, true) => F1
      | (F1, false) => { F1 with delayed := upd F1.delayed (now - E.payDelay) none, points := upd F1.points (now - E.payDelay) 0 }

/-! ### Paying out a growth that was lifted -/

/-- What is paid to whom. Models `pallets/parachain-staking/src/lib.rs:2225-2250`. -/
def growthShares (F : Full) (amount period : Nat) : List (Nat × Nat) :=
  match F.growth period with
  | some g => g.scores.map (fun x => (x.1, perbillMul (ratio x.2 g.points) amount))
  | none => F.selected.map (fun c => (c, perbillMul (ratio 1 F.selected.length) amount))

/-- The loop of payments: `deposit_into_existing` fails for an account that does not exist, the earlier payments stay. Returns the
state, what was paid in total, and whether all succeeded. (An account exists here when it has a balance; with an existential
deposit of zero the code also lets accounts with other references be paid.)
Models `pallets/parachain-staking/src/lib.rs:2201-2223`. -/
def mintAll : List (Nat × Nat) → Full → Full × Nat × Bool
  | [], F => (F, 0, true)
  | x :: l, F =>
    if F.led.free x.1 = 0 then (F, 0, false)
    else
      let r := mintAll l { F with led := { F.led with free := upd F.led.free x.1 (F.led.free x.1 + x.2) } }
      (r.1, x.2 + r.2.1, r.2.2)

/-- `handle_dust` of the token manager: the rest goes to the treasury, if that account exists.
Models `pallets/token-manager/src/lib.rs:1189-1198`. -/
def dustTo (E : EPar) (F : Full) (dust : Nat) : Full :=
  if dust = 0 ∨ F.led.free E.treasury = 0 then F
  else { F with led := { F.led with free := upd F.led.free E.treasury (F.led.free E.treasury + dust) } }

/-- `payout_collators`, called by `on_growth_lifted`; the Boolean is the result. An error leaves the payments made so far.
Models `pallets/parachain-staking/src/lib.rs:2193-2262,2490-2492`. -/
def payoutGrowth (E : EPar) (F : Full) (amount period : Nat) : Full × Bool :=
  if F.processed period = true then (F, false)
  else
    let r := mintAll (growthShares F amount period) F
    if r.2.2 = false then (r.1, false)
    else
      (dustTo E { r.1 with growth := upd r.1.growth period none, processed := upd r.1.processed period true,
                           payouts := r.1.payouts ++ [(period, amount)] } (amount - r.2.1), true)

/-! ### Eras and blocks -/

/-- `EraInfo::should_update`. Models `pallets/parachain-staking/src/types.rs:1297-1299`. -/
def shouldUpdate (F : Full) (now : Nat) : Bool := decide (F.length ≤ now - F.first)

/-- `start_new_era`; `none` is a panic. Models `pallets/parachain-staking/src/lib.rs:1679-1712` and
`pallets/parachain-staking/src/types.rs:1301-1304`. -/
def startEra (E : EPar) (pub : Nat → Option Nat) (F : Full) (now : Nat) : Option Full :=
  let e := F.led.era + 1
  let F1 := if E.par.enabled then preparePayouts E pub F e else F
  (selectTop E F1 e).map (fun F2 =>
    { F2 with led := { F2.led with era := e }, first := now, staked := upd F2.staked e F2.led.total })

/-- `should_end_session`, called by the session pallet before this pallet's own hook.
Models `pallets/parachain-staking/src/session_handler.rs:47-78`. -/
def sessionHook (E : EPar) (pub : Nat → Option Nat) (F : Full) (now : Nat) : Option Full :=
  if shouldUpdate F now then some F
  else if F.force then startEra E pub { F with force := false } now
  else some F

/-- `on_initialize`. Models `pallets/parachain-staking/src/lib.rs:457-478`. -/
def initHook (E : EPar) (pub : Nat → Option Nat) (F : Full) (now pick : Nat) : Option Full :=
  (if shouldUpdate F now then startEra E pub F now else some F).map
    (fun F1 => if E.par.enabled then handlePayouts E F1 F1.led.era pick else F1)

/-- `note_author`. Models `pallets/parachain-staking/src/lib.rs:2475-2488`. -/
def noteAuthor (F : Full) (a : Nat) : Full :=
  { F with awarded := upd F.awarded F.led.era (alPut (F.awarded F.led.era) a (alGet (F.awarded F.led.era) a 0 + 20)),
           points := upd F.points F.led.era (F.points F.led.era + 20) }

/-- The hooks of a block in the order of the runtime (`runtime/avn/src/lib.rs:272-284`): authorship, session, staking. -/
def blockHooks (E : EPar) (pub : Nat → Option Nat) (F : Full) (now author pick : Nat) : Option Full :=
  match sessionHook E pub (noteAuthor F author) now with
  | none => none
  | some F1 => initHook E pub F1 now pick

/-- `set_total_selected`. Models `pallets/parachain-staking/src/lib.rs:795-809`. -/
def setTotalSelected (E : EPar) (F : Full) (v : Nat) : Option Full :=
  if E.minSelected ≤ v ∧ F.totalSelected ≠ v ∧ v ≤ F.length then some { F with totalSelected := v } else none

/-- `set_blocks_per_era`. Models `pallets/parachain-staking/src/lib.rs:815-836`. -/
def setBlocksPerEra (E : EPar) (F : Full) (v : Nat) : Option Full :=
  if E.minBlocks ≤ v ∧ F.length ≠ v ∧ F.totalSelected ≤ v then some { F with length := v } else none

/-- A step of the chain: the hooks of a block, a call of the ledger, or something else. -/
inductive EOp where
  | block (pub : Nat → Option Nat) (now author pick : Nat)
  | ledger (op : Op)
  | setTotalSelected (v : Nat)
  | setBlocksPerEra (v : Nat)
  | forceEra
  | bridgeResult (tx : Nat) (ok : Bool)
  | growthLifted (amount period : Nat)

/-- Ledger calls that may happen between the hooks: not the change of era, and nobody can take from the pot. -/
def Op.allowed (E : EPar) (s : St) : Op → Bool
  | .newEra => false
  | .setFree a v => decide (a = E.pot → s.free a ≤ v)
  | _ => true

/-- One step; `none`: refused, or a panic in the hooks. -/
def eCall (E : EPar) (F : Full) : EOp → Option Full
  | .block pub now author pick => blockHooks E pub F now author pick
  | .ledger op => if op.allowed E F.led then (call E.par F.led op).map (fun s => { F with led := s }) else none
  | .setTotalSelected v => setTotalSelected E F v
  | .setBlocksPerEra v => setBlocksPerEra E F v
  | .forceEra => some { F with force := true }
  | .bridgeResult tx ok => some (bridgeResult F tx ok)
  | .growthLifted amount period => some (payoutGrowth E F amount period).1

/-- A refused step changes nothing. -/
def eStep (E : EPar) (F : Full) (op : EOp) : Full := (eCall E F op).getD F

/-- A history. -/
def eRun (E : EPar) (F : Full) (ops : List EOp) : Full := ops.foldl (eStep E) F

/-- The storage at genesis before collators are chosen. Models `pallets/parachain-staking/src/lib.rs:754-771`. -/
def blank (E : EPar) (led : St) : Full where
  led := led
  first := 0
  length := E.minBlocks + 2
  force := false
  totalSelected := E.minSelected
  selected := []
  atStake := fun _ => []
  staked := upd (fun _ => 0) 1 led.total
  points := fun _ => 0
  awarded := fun _ => []
  delayed := fun _ => none
  locked := 0
  gpStart := 0
  gpIndex := 0
  growth := upd (fun _ => none) 0 (some ⟨1, 0, 0, 0, [], none, none⟩)
  processed := fun _ => false
  lastTriggered := 0
  published := fun _ => none
  paid := []
  aside := fun _ => 0
  served := []
  sent := []
  payouts := []

/-- The state at genesis, from a ledger the genesis candidates and nominators made.
Models `pallets/parachain-staking/src/lib.rs:754-771`. -/
def genesis (E : EPar) (led : St) : Option Full := selectTop E (blank E led) 1

end Verif.Staking
